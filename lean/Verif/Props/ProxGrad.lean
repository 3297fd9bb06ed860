import Verif.Proof.ProxGrad

/-! # Properties C44-C48: `minimize_proximal_gradient`, not accelerated -/

set_option linter.unusedSectionVars false

namespace Copt

open Spec

open scoped InnerProductSpace

variable {E : Type} [NormedAddCommGroup E] [InnerProductSpace ℝ E]

/-- The function `g` of the problem and its proximal operator: `G` is convex and `prox` is exact. -/
def ExactProx (P : PGArgs E) (G : ExtFun E) : Prop := G.IsConvex ∧ IsProxOf G P.proxFn

/-! ### C44 -/

theorem EntryFacts.isProx {P : PGArgs E} {G : ExtFun E} (hG : ExactProx P G) {e : PGEntry E} (h : EntryFacts P e) :
    IsProxPt G e.used (e.x - e.used • (P.fg e.x).2) e.xNext := by
  rw [h.prox]; exact hG.2 _ _ h.pos

theorem EntryFacts.decrease_used {P : PGArgs E} {e : PGEntry E} (h : EntryFacts P e) (hb : P.step = .str "backtracking")
    (hok : e.ok = true) :
    (P.fg e.xNext).1 ≤ (P.fg e.x).1 + ⟪(P.fg e.x).2, e.xNext - e.x⟫_ℝ + ‖e.xNext - e.x‖ ^ 2 / (2 * e.used) := by
  have h1 := h.decrease hb hok
  have h2 : ‖e.xNext - e.x‖ ^ 2 / (2 * e.step) ≤ ‖e.xNext - e.x‖ ^ 2 / (2 * e.used) :=
    div_le_div_of_nonneg_left (sq_nonneg _) (by linarith [h.pos]) (by linarith [h.le_step])
  linarith

/-- **C44 (partial).** Every run (backtracking) returns, and every iteration of it whose line search succeeds, and which is not
preceded by an exhausted line search, decreases `f + g` by `‖x_next - x‖² / (2 s)`, `s` being the step given to `prox` - for
every objective `fg` (no smoothness is used), every convex `G` with exact `prox`, tolerance, callback, factor and
iteration limits.  Missing: iterations after an exhausted line search, for which the claim is false (`C44_refuted`). -/
theorem C44_descent_partial {P : PGArgs E} {G : ExtFun E} (hG : ExactProx P G) (hstore : P.store = id)
    (hb : P.step = .str "backtracking") (hf : 0 < P.factor) (hbt : 0 < P.btIter) :
    ∃ res, minimizeProximalGradient P = .ok res ∧
      ∀ pre e suf, res.log = pre ++ e :: suf → (∀ q ∈ pre, q.ok = true) → e.ok = true →
        e.xNext ∈ G.dom ∧ (e.x ∈ G.dom →
          (P.fg e.xNext).1 + G.val e.xNext ≤ (P.fg e.x).1 + G.val e.x - ‖e.xNext - e.x‖ ^ 2 / (2 * e.used)) := by
  obtain ⟨res, hres, -, hent, -⟩ := pg_run hstore (Or.inl ⟨hb, hf⟩) hbt
  refine ⟨res, hres, fun pre e suf hl hpre hok => ?_⟩
  have hE := (hent pre e suf hl).2 hpre
  have hp := hE.isProx hG
  refine ⟨hp.1, fun hx => ?_⟩
  have h := prox_grad_ineq hG.1 hE.pos hp (hE.decrease_used hb hok) hx
  simp only [sub_self, inner_zero_right, norm_zero] at h
  rw [norm_sub_rev] at h
  have e1 : ((0 : ℝ) ^ 2 - ‖e.xNext - e.x‖ ^ 2) / (2 * e.used) = -(‖e.xNext - e.x‖ ^ 2 / (2 * e.used)) := by ring
  rw [e1] at h
  linarith

/-! ### C45 -/

/-- **C45 (one search).** With the quadratic upper bound, a search with more than `m` iterations, where
`1.1 * step * factor^m ≤ 1/L`, succeeds, and leaves a step of at least `min(1.1 * step, factor/L)`. -/
theorem C45_search {f : E → ℝ} {g : E → E} {L : ℝ} (hL : 0 < L) (hq : UpperQuad f g L) (prox : E → ℝ → E) (x : E)
    {factor step : ℝ} (hf0 : 0 < factor) (hf1 : factor ≤ 1) (hs : 0 < step) {btIter m : ℕ} (hm : m < btIter)
    (hsm : 11 / 10 * step * factor ^ m ≤ 1 / L) :
    let r := pgSearch (fun x => (f x, g x)) prox x (g x) (f x) factor btIter step
    r.ok = true ∧ min (11 / 10 * step) (factor / L) ≤ r.step ∧ r.step ≤ 11 / 10 * step := by
  obtain ⟨h1, h2, h3⟩ := lsLoop_smooth hL hq prox x hf0 hf1 (btIter - 1) (prox (x - step • g x) step) step (step * (11 / 10))
    (by positivity)
  refine ⟨h1 (le_trans ?_ hsm), by rw [mul_comm (11 / 10) step]; exact h2, by rw [mul_comm (11 / 10) step]; exact h3⟩
  rw [mul_comm step]
  exact mul_le_mul_of_nonneg_left (pow_le_pow_of_le_one hf0.le hf1 (by omega)) (by positivity)

/-- **C45 (whole run).** With the quadratic upper bound, factor in `(0, 1]` and `max_iter_backtracking` large enough that
`1.1^(max_iter+1) * step_0 * factor^(max_iter_backtracking-1) ≤ 1/L`: the run returns, issues no line search warning,
every line search succeeds and every step is at least `min(step_0, factor/L)`; for every `prox` and every callback. -/
theorem C45_run {P : PGArgs E} {f : E → ℝ} {g : E → E} {L : ℝ} (hfg : P.fg = fun x => (f x, g x)) (hL : 0 < L)
    (hq : UpperQuad f g L) (hstore : P.store = id) (hb : P.step = .str "backtracking") (hf0 : 0 < P.factor)
    (hf1 : P.factor ≤ 1) (hbt : 0 < P.btIter)
    (hm : (11 / 10) ^ (P.maxIter + 1) * ((18 / 10) / (initLipschitz P.fg P.x0).1) * P.factor ^ (P.btIter.toNat - 1) ≤ 1 / L) :
    ∃ res, minimizeProximalGradient P = .ok res ∧ res.warnLs = 0 ∧ ∀ e ∈ res.log, e.ok = true ∧
      min ((18 / 10) / (initLipschitz P.fg P.x0).1) (P.factor / L) ≤ e.step := by
  set s0 := (18 / 10) / (initLipschitz P.fg P.x0).1 with hs0
  have hs0p : 0 < s0 := div_pos (by norm_num) (initLipschitz_pos _ _)
  have hmin : 0 < min s0 (P.factor / L) := lt_min hs0p (div_pos hf0 hL)
  have hSO : PGStepOk P := Or.inl ⟨hb, hf0⟩
  let J : PGState E → Prop := fun st => PGInv P st ∧ st.warnLs = 0 ∧
    ∀ e ∈ st.log, e.ok = true ∧ min s0 (P.factor / L) ≤ e.step
  let I : ℕ → PGState E → Prop := fun rem st => J st ∧ st.nit + rem = P.maxIter ∧
    ∃ t, st.stepSize = some t ∧ min s0 (P.factor / L) ≤ t ∧ t ≤ (11 / 10) ^ st.nit * s0
  have hbody : ∀ rem st st' w, I rem st → pgBody P st = .ok (st', w) → J st' ∧ st'.nit = st.nit ∧
      ∃ t, st'.stepSize = some t ∧ min s0 (P.factor / L) ≤ t ∧ t ≤ (11 / 10) ^ (st.nit + 1) * s0 := by
    rintro rem st st' w ⟨⟨hI, hw, hall⟩, hn, t, ht, hlo, hhi⟩ hbo
    obtain ⟨e1, e2, e3, e4, -, e6, -, e8, e9⟩ := pgCallback_eq P st
    have hgrow : (11 / 10 : ℝ) ^ st.nit * s0 ≤ (11 / 10) ^ (st.nit + 1) * s0 := by
      rw [pow_succ]; nlinarith [pow_pos (show (0 : ℝ) < 11 / 10 by norm_num) st.nit, mul_pos (pow_pos (show (0 : ℝ) < 11 / 10 by norm_num) st.nit) hs0p]
    rcases pgBody_cases hbo with ⟨rfl, hc, rfl⟩ | ⟨hc, r, hr, rfl, -⟩
    · exact ⟨⟨hI.cb, by rw [e9]; exact hw, by rw [e8]; exact hall⟩, e6, t, by rw [e4]; exact ht, hlo, le_trans hhi hgrow⟩
    · obtain ⟨r', hr', h1, h2, h3, h4, h5, h6⟩ := pgStepBranch_facts hSO hI.cb
      rw [hr] at hr'
      simp only [Except.ok.injEq] at hr'
      subst hr'
      have htp : 0 < t := lt_of_lt_of_le hmin hlo
      have hsb : r = pgSearch P.fg P.proxFn st.x st.grad st.fk P.factor P.btIter.toNat t := by
        unfold pgStepBranch at hr
        rw [hb] at hr
        simp only [if_true, e4, ht, e1, e2, e3, Except.ok.injEq] at hr
        exact hr.symm
      have hfr := hI.fresh (fun q hq => (hall q hq).1)
      rw [hfg] at hfr
      simp only [Prod.mk.injEq] at hfr
      rw [hfg, hfr.1, hfr.2] at hsb
      have hpow : 11 / 10 * t * P.factor ^ (P.btIter.toNat - 1) ≤ 1 / L := by
        refine le_trans ?_ hm
        refine mul_le_mul_of_nonneg_right ?_ (pow_nonneg hf0.le _)
        have hmono : (11 / 10 : ℝ) ^ (st.nit + 1) ≤ (11 / 10) ^ (P.maxIter + 1) := pow_le_pow_right₀ (by norm_num) (by omega)
        calc 11 / 10 * t ≤ 11 / 10 * ((11 / 10) ^ st.nit * s0) := by linarith
          _ = (11 / 10) ^ (st.nit + 1) * s0 := by rw [pow_succ]; ring
          _ ≤ _ := mul_le_mul_of_nonneg_right hmono hs0p.le
      obtain ⟨hok, hlo', hhi'⟩ := C45_search hL hq P.proxFn st.x hf0 hf1 htp (btIter := P.btIter.toNat) (m := P.btIter.toNat - 1)
        (by omega) hpow
      rw [← hsb] at hok hlo' hhi'
      have hlow : min s0 (P.factor / L) ≤ r.step := by
        refine le_trans (le_min ?_ (min_le_right _ _)) hlo'
        linarith
      refine ⟨⟨hI.cb.next hstore h1 h2 h3 h4 h5 h6, ?_, ?_⟩, e6, r.step, rfl, hlow, ?_⟩
      · show (if r.ok then _ else _) = 0
        rw [if_pos hok, e9]; exact hw
      · intro e he
        rcases List.mem_append.mp (show e ∈ (pgCallback P st).1.log ++ [_] from he) with he | he
        · rw [e8] at he; exact hall e he
        · rw [List.mem_singleton.mp he]; exact ⟨hok, hlow⟩
      · calc r.step ≤ 11 / 10 * t := hhi'
          _ ≤ 11 / 10 * ((11 / 10) ^ st.nit * s0) := by linarith
          _ = (11 / 10) ^ (st.nit + 1) * s0 := by rw [pow_succ]; ring
  obtain ⟨res, hres, -⟩ := pg_run hstore hSO hbt
  obtain ⟨-, st, w, hr, rfl⟩ := minimizePG_ok hres
  refine ⟨_, hres, ?_⟩
  have : J st := pgLoop_induct (P := P) I (fun st _ => J st)
    (fun rem st st' w h hbo => (hbody rem st st' _ h hbo).1)
    (fun rem st st' h hbo => by
      obtain ⟨⟨j1, j2, j3⟩, h2, t, h3, h4, h5⟩ := hbody _ st st' _ h hbo
      have := h.2.1
      exact ⟨⟨j1.nit _, j2, j3⟩, by simp only; omega, t, h3, h4, by simp only [h2]; exact h5⟩)
    (fun st st' h hbo => (hbody _ st st' _ h hbo).1) P.maxIter (pgInit P)
    ⟨⟨PGInv.init P, rfl, by simp [pgInit]⟩, by simp [pgInit], s0, by simp only [pgInit, pgStep0, hb, if_true, hs0], min_le_left _ _,
      by simp [pgInit]⟩ st w hr
  exact this.2

/-! ### C46 -/

/-- **C46 (partial).** Backtracking or a positive callable step: the run returns, it reports success exactly when it was not
stopped by the callback and the certificate is below the tolerance, and if moreover no line search before the last
iteration was exhausted, there is a subgradient `w` of `G` at the returned `x` with
`‖grad f(x) + w‖ ≤ (1.1 + L step) tol`, `step` being the returned step size (or the last value of the callable).
Missing: success after an exhausted line search, for which the claim is false (`C46_refuted`). -/
theorem C46_success_partial {P : PGArgs E} {G : ExtFun E} (hG : ExactProx P G) (hstore : P.store = id) (hs : PGStepOk P)
    (hbt : 0 < P.btIter) {L : ℝ} (hL : 0 ≤ L) (hlip : LipGrad (fun x => (P.fg x).2) L) :
    ∃ res, minimizeProximalGradient P = .ok res ∧
      (res.success = true ↔ res.why ≠ .callback ∧ ∃ c, res.certificate = some c ∧ c < P.tol) ∧
      (res.success = true → (∀ q ∈ res.log.dropLast, q.ok = true) →
        ∃ w s, IsSubgrad G res.x w ∧ res.stepSize = some s ∧ ‖(P.fg res.x).2 + w‖ ≤ (11 / 10 + L * s) * P.tol) := by
  obtain ⟨res, hres, hx, hent, -, -, hnc, hsw, -, -⟩ := pg_run hstore hs hbt
  refine ⟨res, hres, ?_, fun hsuc hall => ?_⟩
  · constructor
    · intro h
      have hw : res.why ≠ .callback := by rw [hsw.mp h]; simp
      obtain ⟨-, pre, e, -, -, hc, hiff⟩ := hnc hw
      exact ⟨hw, _, hc, hiff.mp h⟩
    · rintro ⟨hw, c, hc, hlt⟩
      obtain ⟨-, pre, e, -, -, hc', hiff⟩ := hnc hw
      rw [hc] at hc'
      simp only [Option.some.injEq] at hc'
      exact hiff.mpr (hc' ▸ hlt)
  · have hw : res.why ≠ .callback := by rw [hsw.mp hsuc]; simp
    obtain ⟨-, pre, e, hlog, hst, -, hiff⟩ := hnc hw
    have hlt := hiff.mp hsuc
    have hE : EntryFacts P e := (hent pre e [] (by rw [hlog])).2 (fun q hq => hall q (by rw [hlog]; simpa using hq))
    have hxe : res.x = e.xNext := by rw [hx, hlog, lastX_snoc, hstore]; rfl
    have hspos : 0 < e.step := lt_of_lt_of_le hE.pos hE.le_step
    refine ⟨_, e.step, by rw [hxe]; exact (hE.isProx hG).subgrad hG.1 hE.pos, hst, ?_⟩
    rw [hxe]
    have e1 : (P.fg e.xNext).2 + e.used⁻¹ • (e.x - e.used • (P.fg e.x).2 - e.xNext) =
        ((P.fg e.xNext).2 - (P.fg e.x).2) + e.used⁻¹ • (e.x - e.xNext) := by
      rw [show e.x - e.used • (P.fg e.x).2 - e.xNext = (e.x - e.xNext) - e.used • (P.fg e.x).2 by abel, smul_sub, smul_smul,
        inv_mul_cancel₀ hE.pos.ne', one_smul]
      abel
    rw [e1]
    have h1 : ‖(P.fg e.xNext).2 - (P.fg e.x).2‖ ≤ L * ‖e.x - e.xNext‖ := by
      rw [norm_sub_rev e.x]; exact hlip _ _
    have h2 : ‖e.used⁻¹ • (e.x - e.xNext)‖ = ‖e.x - e.xNext‖ / e.used := by
      rw [norm_smul, norm_inv, Real.norm_eq_abs, abs_of_pos hE.pos, inv_mul_eq_div]
    have h3 : ‖e.x - e.xNext‖ ≤ e.step * P.tol := by
      rw [div_lt_iff₀ hspos] at hlt; linarith
    have h4 : ‖e.x - e.xNext‖ / e.used ≤ 11 / 10 * P.tol := by
      rw [div_le_iff₀ hE.pos]
      rw [div_lt_iff₀ hspos] at hlt
      have htol : 0 ≤ P.tol := by
        have := norm_nonneg (e.x - e.xNext)
        by_contra hc
        push Not at hc
        nlinarith
      nlinarith [mul_le_mul_of_nonneg_left hE.step_le htol]
    calc ‖((P.fg e.xNext).2 - (P.fg e.x).2) + e.used⁻¹ • (e.x - e.xNext)‖
        ≤ L * ‖e.x - e.xNext‖ + ‖e.x - e.xNext‖ / e.used := le_trans (norm_add_le _ _) (by rw [h2]; linarith)
      _ ≤ L * (e.step * P.tol) + 11 / 10 * P.tol := by nlinarith [mul_le_mul_of_nonneg_left h3 hL]
      _ = (11 / 10 + L * e.step) * P.tol := by ring

/-! ### C47 -/

/-- The rate of a list of iterations each of which satisfies the quadratic upper bound with the inverse of its step. -/
theorem pg_rate_core {P : PGArgs E} {G : ExtFun E} (hG : ExactProx P G) {f : E → ℝ} {g : E → E} (hg : ∀ x, (P.fg x).2 = g x)
    (hconv : ConvexGrad f g) (hstore : P.store = id) {log : List (PGEntry E)}
    (hent : ∀ pre e suf, log = pre ++ e :: suf → e.x = lastX P pre ∧ ((∀ q ∈ pre, q.ok = true) → EntryFacts P e))
    (hdec : ∀ pre e suf, log = pre ++ e :: suf → (∀ q ∈ pre ++ [e], q.ok = true) →
      f e.xNext ≤ f e.x + ⟪g e.x, e.xNext - e.x⟫_ℝ + ‖e.xNext - e.x‖ ^ 2 / (2 * e.used)) :
    ∀ pre e suf, log = pre ++ e :: suf → (∀ q ∈ pre ++ [e], q.ok = true) → e.xNext ∈ G.dom ∧ ∀ y ∈ G.dom,
        (f e.xNext + G.val e.xNext) - (f y + G.val y) ≤ ‖P.x0 - y‖ ^ 2 / (2 * ((pre ++ [e]).map PGEntry.used).sum) := by
  -- strengthened statement: 2 S (F(x_k) - F(y)) + |x_k - y|^2 <= |x_0 - y|^2 and S > 0
  suffices H : ∀ (pre : List (PGEntry E)) e suf, log = pre ++ e :: suf → (∀ q ∈ pre ++ [e], q.ok = true) → e.xNext ∈ G.dom ∧
      0 < ((pre ++ [e]).map PGEntry.used).sum ∧ ∀ y ∈ G.dom,
        2 * ((pre ++ [e]).map PGEntry.used).sum * ((f e.xNext + G.val e.xNext) - (f y + G.val y)) + ‖e.xNext - y‖ ^ 2 ≤
          ‖P.x0 - y‖ ^ 2 by
    intro pre e suf hl hok
    obtain ⟨h1, h2, h3⟩ := H pre e suf hl hok
    refine ⟨h1, fun y hy => ?_⟩
    rw [le_div_iff₀ (by linarith)]
    have := h3 y hy
    nlinarith [sq_nonneg ‖e.xNext - y‖]
  intro pre
  induction pre using List.reverseRecOn with
  | nil =>
    intro e suf hl hok
    obtain ⟨hx, hE⟩ := hent [] e suf hl
    have hE := hE (by simp)
    have hp := hE.isProx hG
    rw [hg] at hp
    refine ⟨hp.1, by simpa using hE.pos, fun y hy => ?_⟩
    have h := prox_grad_ineq hG.1 hE.pos hp (hdec [] e suf hl hok) hy
    have hc := hconv e.x y
    have hx0 : e.x = P.x0 := by rw [hx]; rfl
    rw [hx0] at h hc
    have h' : (f e.xNext + G.val e.xNext) - (f y + G.val y) ≤ (‖y - P.x0‖ ^ 2 - ‖y - e.xNext‖ ^ 2) / (2 * e.used) := by linarith
    rw [le_div_iff₀ (by linarith [hE.pos])] at h'
    rw [norm_sub_rev P.x0, norm_sub_rev e.xNext]
    simp only [List.nil_append, List.map_cons, List.map_nil, List.sum_singleton]
    linarith
  | append_singleton pre q ih =>
    intro e suf hl hok
    obtain ⟨hx, hE⟩ := hent (pre ++ [q]) e suf hl
    have hE := hE (fun r hr => hok r (List.mem_append_left _ hr))
    have hp := hE.isProx hG
    rw [hg] at hp
    obtain ⟨hq1, hq2, hq3⟩ := ih q (e :: suf) (by rw [hl]; simp) (fun r hr => hok r (List.mem_append_left _ hr))
    have hxq : e.x = q.xNext := by rw [hx, lastX_snoc, hstore]; rfl
    have hde := hdec (pre ++ [q]) e suf hl hok
    have hsum : ((pre ++ [q] ++ [e]).map PGEntry.used).sum = ((pre ++ [q]).map PGEntry.used).sum + e.used := by
      simp [List.sum_append, add_assoc]
    refine ⟨hp.1, by rw [hsum]; linarith [hE.pos], fun y hy => ?_⟩
    have h := prox_grad_ineq hG.1 hE.pos hp hde hy
    have hd := prox_grad_ineq hG.1 hE.pos hp hde (hxq ▸ hq1 : e.x ∈ G.dom)
    have hc := hconv e.x y
    have h3 := hq3 y hy
    simp only [sub_self, inner_zero_right, norm_zero] at h hd
    rw [hxq] at h hd hc
    have hd' : f e.xNext + G.val e.xNext ≤ f q.xNext + G.val q.xNext := by
      have : ((0 : ℝ) ^ 2 - ‖q.xNext - e.xNext‖ ^ 2) / (2 * e.used) ≤ 0 :=
        div_nonpos_of_nonpos_of_nonneg (by nlinarith [sq_nonneg ‖q.xNext - e.xNext‖]) (by linarith [hE.pos])
      linarith
    have h' : (f e.xNext + G.val e.xNext) - (f y + G.val y) ≤ (‖y - q.xNext‖ ^ 2 - ‖y - e.xNext‖ ^ 2) / (2 * e.used) := by linarith
    rw [le_div_iff₀ (by linarith [hE.pos])] at h'
    rw [norm_sub_rev q.xNext] at h3
    rw [norm_sub_rev e.xNext, hsum]
    have := mul_le_mul_of_nonneg_left hd' (show 0 ≤ 2 * ((pre ++ [q]).map PGEntry.used).sum by linarith)
    nlinarith

/-- **C47.** Convex `f` and `G`, exact `prox`, backtracking: the run returns, and after every non-empty prefix of its
iterations with successful line searches, the objective at the last iterate exceeds that of any `y` by at most
`‖x0 - y‖² / (2 * sum of the steps given to prox)`. -/
theorem C47_rate {P : PGArgs E} {G : ExtFun E} (hG : ExactProx P G) {f : E → ℝ} {g : E → E} (hfg : P.fg = fun x => (f x, g x))
    (hconv : ConvexGrad f g) (hstore : P.store = id) (hb : P.step = .str "backtracking") (hf : 0 < P.factor)
    (hbt : 0 < P.btIter) :
    ∃ res, minimizeProximalGradient P = .ok res ∧
      ∀ pre e suf, res.log = pre ++ e :: suf → (∀ q ∈ pre ++ [e], q.ok = true) → e.xNext ∈ G.dom ∧ ∀ y ∈ G.dom,
        (f e.xNext + G.val e.xNext) - (f y + G.val y) ≤ ‖P.x0 - y‖ ^ 2 / (2 * ((pre ++ [e]).map PGEntry.used).sum) := by
  obtain ⟨res, hres, -, hent, -⟩ := pg_run hstore (Or.inl ⟨hb, hf⟩) hbt
  refine ⟨res, hres, pg_rate_core hG (fun x => by rw [hfg]) hconv hstore hent fun pre e suf hl hok => ?_⟩
  have h := ((hent pre e suf hl).2 fun q hq => hok q (List.mem_append_left _ hq)).decrease_used hb (hok e (by simp))
  rw [hfg] at h
  exact h

/-- Iterations with a callable step: the step given to `prox` is the recorded one, a value of the callable, and none is marked as
failed. -/
theorem pg_callable_log {P : PGArgs E} {rule : ℕ → PGState E → ℝ} (hr : P.step = .callable rule) {res : PGResult E}
    (h : minimizeProximalGradient P = .ok res) : ∀ e ∈ res.log, e.ok = true ∧ e.used = e.step ∧ ∃ i st, e.used = rule i st := by
  obtain ⟨-, st, w, hloop, rfl⟩ := minimizePG_ok h
  let I : PGState E → Prop := fun st => ∀ e ∈ st.log, e.ok = true ∧ e.used = e.step ∧ ∃ i st, e.used = rule i st
  have hbody : ∀ st st' w, I st → pgBody P st = .ok (st', w) → I st' := by
    intro st st' w hI hb
    obtain ⟨-, -, -, -, -, -, -, hlog, -⟩ := pgCallback_eq P st
    rcases pgBody_cases hb with ⟨-, -, rfl⟩ | ⟨-, r, hs, rfl, -⟩
    · intro e he
      rw [hlog] at he
      exact hI e he
    · unfold pgStepBranch at hs
      rw [hr] at hs
      simp only [Except.ok.injEq] at hs
      intro e he
      have he : e ∈ (pgCallback P st).1.log ++ [⟨(pgCallback P st).1.x, r.xNext, r.used, r.step, r.ok⟩] := he
      rcases List.mem_append.mp he with he | he
      · rw [hlog] at he
        exact hI e he
      · rw [List.mem_singleton.mp he, ← hs]
        exact ⟨rfl, rfl, _, _, rfl⟩
  exact pgLoop_induct (P := P) (fun _ st => I st) (fun st _ => I st) (fun _ st st' w hI hb => hbody st st' _ hI hb)
    (fun _ st st' hI hb => hbody st st' _ hI hb) (fun st st' hI hb => hbody st st' _ hI hb) P.maxIter (pgInit P)
    (fun e he => by simp [pgInit] at he) st w hloop

/-- **C47 (callable step).** Convex `f` with the quadratic upper bound, convex `G` with exact `prox`, a callable returning steps in
`(0, 1/L]`: the same rate after every iteration.  Only the gradients returned by `fg` matter. -/
theorem C47_callable {P : PGArgs E} {G : ExtFun E} (hG : ExactProx P G) {f : E → ℝ} {g : E → E} (hg : ∀ x, (P.fg x).2 = g x)
    (hconv : ConvexGrad f g) {L : ℝ} (hL : 0 < L) (hq : UpperQuad f g L) (hstore : P.store = id) {rule : ℕ → PGState E → ℝ}
    (hr : P.step = .callable rule) (hpos : ∀ i st, 0 < rule i st ∧ rule i st ≤ 1 / L) (hbt : 0 < P.btIter) :
    ∃ res, minimizeProximalGradient P = .ok res ∧
      ∀ pre e suf, res.log = pre ++ e :: suf → e.xNext ∈ G.dom ∧ ∀ y ∈ G.dom,
        (f e.xNext + G.val e.xNext) - (f y + G.val y) ≤ ‖P.x0 - y‖ ^ 2 / (2 * ((pre ++ [e]).map PGEntry.used).sum) := by
  obtain ⟨res, hres, -, hent, -⟩ := pg_run hstore (Or.inr ⟨rule, hr, fun i st => (hpos i st).1⟩) hbt
  have hlog := pg_callable_log hr hres
  refine ⟨res, hres, fun pre e suf hl => pg_rate_core hG hg hconv hstore hent (fun pre e suf hl hok => ?_) pre e suf hl ?_⟩
  · obtain ⟨-, -, i, st, hu⟩ := hlog e (by rw [hl]; simp)
    have h1 := hq e.x e.xNext
    have h2 : L / 2 ≤ 1 / (2 * e.used) := by
      obtain ⟨h3, h4⟩ := hpos i st
      rw [hu, div_le_div_iff₀ two_pos (by linarith)]
      rw [le_div_iff₀ hL] at h4
      nlinarith
    have h3 := mul_le_mul_of_nonneg_right h2 (sq_nonneg ‖e.xNext - e.x‖)
    have h4 : 1 / (2 * e.used) * ‖e.xNext - e.x‖ ^ 2 = ‖e.xNext - e.x‖ ^ 2 / (2 * e.used) := by ring
    linarith
  · intro q hq'
    refine (hlog q ?_).1
    rw [hl]
    rcases List.mem_append.mp hq' with h | h
    · exact List.mem_append_left _ h
    · rw [List.mem_singleton.mp h]; simp

/-! ### C48 -/

/-- **C48 (partial).** Backtracking or a positive callable step: the run returns, `nit ≤ max_iter`, and it made `nit + 1`
iterations unless the callback stopped it (then `nit`).  Missing: the warning on exhaustion, which is never issued
(`C48_never_warns`). -/
theorem C48_accounting_partial {P : PGArgs E} (hstore : P.store = id) (hs : PGStepOk P) (hbt : 0 < P.btIter) :
    ∃ res, minimizeProximalGradient P = .ok res ∧ res.nit ≤ P.maxIter ∧
      (res.why ≠ .callback → res.log.length = res.nit + 1) ∧
      (res.why = .callback → P.callback ≠ none ∧ res.log.length = res.nit) ∧
      (res.why = .exhausted → res.nit = P.maxIter ∧ res.success = false) ∧ (res.success = true → res.warned = false) := by
  obtain ⟨res, hres, -, -, hn, hcb, hnc, hsw, hex, hw⟩ := pg_run hstore hs hbt
  refine ⟨res, hres, hn, fun h => (hnc h).1, hcb, fun h => ⟨hex h, ?_⟩, fun _ => hw⟩
  cases hh : res.success with
  | false => rfl
  | true => rw [hsw.mp hh] at h; cases h

/-- C48: argument validation. -/
theorem C48_bad_bt (P : PGArgs E) (h : P.btIter ≤ 0) : minimizeProximalGradient P = .error .valueError := by
  unfold minimizeProximalGradient; rw [if_pos h]

/-- C48: an unknown step strategy raises ValueError (unless the first callback returned False). -/
theorem C48_bad_step (P : PGArgs E) (h : 0 < P.btIter) {s : String} (hs : P.step = .str s) (h1 : s ≠ "backtracking")
    (h2 : s ≠ "fixed") (hcb : (pgCallback P (pgInit P)).2 = false) : minimizeProximalGradient P = .error .valueError := by
  have hb : pgBody P (pgInit P) = .error .valueError := by
    unfold pgBody
    rw [if_neg (by rw [hcb]; simp)]
    unfold pgStepBranch
    rw [hs]
    simp only [if_neg h1, if_neg h2]; rfl
  unfold minimizeProximalGradient
  rw [if_neg (by omega), pgLoop, hb]; rfl

/-- C48: the strategy `"fixed"`, which the code mentions, raises TypeError. -/
theorem C48_fixed_fails (P : PGArgs E) (h : 0 < P.btIter) (hs : P.step = .str "fixed")
    (hcb : (pgCallback P (pgInit P)).2 = false) : minimizeProximalGradient P = .error .typeError := by
  have hb : pgBody P (pgInit P) = .error .typeError := by
    unfold pgBody
    rw [if_neg (by rw [hcb]; simp)]
    unfold pgStepBranch
    rw [hs]
    simp only [show ("fixed" = "backtracking") = False by decide, if_false, if_true]; rfl
  unfold minimizeProximalGradient
  rw [if_neg (by omega), pgLoop, hb]; rfl

/-- C48 (refuted): no run of the non-accelerated method ever issues the final RuntimeWarning. -/
theorem C48_never_warns {P : PGArgs E} {res : PGResult E} (h : minimizeProximalGradient P = .ok res) : res.warned = false := by
  obtain ⟨-, st, w, -, rfl⟩ := minimizePG_ok h; rfl

end Copt
