import Verif.Props.AcceleratedSearch
import Verif.Props.ProxGradWitness

/-!
# C89, C90: the proximal gradient method reaches the requested tolerance, and converges linearly under strong convexity

For a smooth (not necessarily convex) `f`, a convex `G` with exact `prox` and `f + G` bounded below: if `max_iter` is at least
an explicit number the run stops by itself with `success=True`.
-/

set_option linter.unusedSectionVars false

namespace Copt

open Spec

open scoped InnerProductSpace

variable {E : Type} [NormedAddCommGroup E] [InnerProductSpace ℝ E]

/-- Only the last iteration of a run can have a certificate below the tolerance. -/
theorem pg_not_small {P : PGArgs E} (hstore : P.store = id) (hs : PGStepOk P) {res : PGResult E}
    (h : minimizeProximalGradient P = .ok res) :
    (∀ e ∈ res.log.dropLast, P.tol ≤ ‖e.x - e.xNext‖ / e.step) ∧
      (res.why = .exhausted → ∀ e ∈ res.log, P.tol ≤ ‖e.x - e.xNext‖ / e.step) ∧
      (res.why = .callback → P.callback ≠ none) := by
  obtain ⟨-, st, w, hloop, rfl⟩ := minimizePG_ok h
  let I : ℕ → PGState E → Prop := fun _ st => PGInv P st ∧ ∀ e ∈ st.log, P.tol ≤ ‖e.x - e.xNext‖ / e.step
  have hlt : ∀ c tol : ℝ, certLt (some c) tol ↔ c < tol := fun c tol => by
    unfold certLt
    constructor
    · rintro ⟨r, hr, h⟩
      simp only [Option.some.injEq] at hr
      rw [hr]; exact h
    · exact fun h => ⟨c, rfl, h⟩
  have hcont : ∀ st st', (PGInv P st ∧ ∀ e ∈ st.log, P.tol ≤ ‖e.x - e.xNext‖ / e.step) → pgBody P st = .ok (st', none) →
      PGInv P st' ∧ ∀ e ∈ st'.log, P.tol ≤ ‖e.x - e.xNext‖ / e.step := by
    rintro st st' ⟨h1, h2⟩ hb
    obtain ⟨st1, w, e, hI, hn, hh⟩ := h1.body hstore hs
    rw [hb] at e
    simp only [Except.ok.injEq, Prod.mk.injEq] at e
    obtain ⟨rfl, rfl⟩ := e
    rcases hh with ⟨h, -⟩ | ⟨-, -, ⟨en, hl, hx, hx', hst, hce⟩, hiff⟩
    · cases h
    · refine ⟨hI, ?_⟩
      rw [hl]
      intro q hq
      rcases List.mem_append.mp hq with hq | hq
      · exact h2 q hq
      · rw [List.mem_singleton.mp hq]
        rw [hce, hlt] at hiff
        by_contra hc
        have := hiff.mpr (not_le.mp hc)
        cases this
  exact pgLoop_induct (P := P) I (fun st w => (∀ e ∈ st.log.dropLast, P.tol ≤ ‖e.x - e.xNext‖ / e.step) ∧
      (w = .exhausted → ∀ e ∈ st.log, P.tol ≤ ‖e.x - e.xNext‖ / e.step) ∧ (w = .callback → P.callback ≠ none))
    (by
      rintro rem st st' w ⟨h1, h2⟩ hb
      obtain ⟨st1, w', e, hI, hn, hh⟩ := h1.body hstore hs
      rw [hb] at e
      simp only [Except.ok.injEq, Prod.mk.injEq] at e
      obtain ⟨rfl, rfl⟩ := e
      rcases hh with ⟨h, hl, hcb⟩ | ⟨hnc, hnx, ⟨en, hl, -⟩, hiff⟩
      · simp only [Option.some.injEq] at h
        subst h
        exact ⟨fun q hq => h2 q (by rw [hl] at hq; exact List.mem_of_mem_dropLast hq), by simp, fun _ => hcb⟩
      · refine ⟨fun q hq => h2 q (by rw [hl] at hq; simpa using hq), fun h => absurd (by rw [h]) hnx,
          fun h => absurd (by rw [h]) hnc⟩)
    (fun rem st st' hI hb => by
      obtain ⟨a, b⟩ := hcont st st' hI hb
      exact ⟨a.nit _, b⟩)
    (fun st st' hI hb => by
      obtain ⟨a, b⟩ := hcont st st' hI hb
      exact ⟨fun q hq => b q (List.mem_of_mem_dropLast hq), fun _ => b, by simp⟩)
    P.maxIter _ ⟨PGInv.init P, by simp [pgInit]⟩ st w hloop

/-- Common part: every line search succeeded with a step of at least `s`. -/
theorem pg_reaches {P : PGArgs E} {G : ExtFun E} (hG : ExactProx P G) {f : E → ℝ} {g : E → E} {low s : ℝ}
    (hfg : P.fg = fun x => (f x, g x)) (hstore : P.store = id)
    (hb : P.step = .str "backtracking") (hf0 : 0 < P.factor) (hbt : 0 < P.btIter) (hs0 : 0 < s)
    {res : PGResult E} (hres : minimizeProximalGradient P = .ok res) (hok : ∀ e ∈ res.log, e.ok = true ∧ s ≤ e.step)
    (hx0 : P.x0 ∈ G.dom) (hlow : ∀ y ∈ G.dom, low ≤ f y + G.val y) (hcb : P.callback = none) (htol : 0 < P.tol)
    (hiter : (f P.x0 + G.val P.x0) - low < (P.maxIter + 1) * (P.tol ^ 2 * s / 2)) :
    ∃ res, minimizeProximalGradient P = .ok res ∧ res.success = true ∧ (∃ c, res.certificate = some c ∧ c < P.tol) ∧
      res.x ∈ G.dom ∧ res.nit * (P.tol ^ 2 * s / 2) ≤ (f P.x0 + G.val P.x0) - low := by
  have hSO : PGStepOk P := Or.inl ⟨hb, hf0⟩
  obtain ⟨res1, hres1, hx, hent, hn, hcall, hnc, hsw, hex, -⟩ := pg_run hstore hSO hbt
  rw [hres] at hres1
  simp only [Except.ok.injEq] at hres1
  subst hres1
  obtain ⟨res2, hres2, hdes⟩ := C44_descent_partial hG hstore hb hf0 hbt
  rw [hres] at hres2
  simp only [Except.ok.injEq] at hres2
  subst hres2
  obtain ⟨hns1, hns2, hns3⟩ := pg_not_small hstore hSO hres
  set δ := P.tol ^ 2 * s / 2 with hδ
  have hδ0 : 0 < δ := by positivity
  -- telescoping
  have key : ∀ (pre suf : List (PGEntry E)), res.log = pre ++ suf → (∀ e ∈ pre, P.tol ≤ ‖e.x - e.xNext‖ / e.step) →
      lastX P pre ∈ G.dom ∧ f (lastX P pre) + G.val (lastX P pre) ≤ f P.x0 + G.val P.x0 - pre.length * δ := by
    intro pre
    induction pre using List.reverseRecOn with
    | nil => intro suf _ _; exact ⟨by simpa [lastX] using hx0, by simp [lastX]⟩
    | append_singleton pre e ih =>
      intro suf hl hbig
      have hl' : res.log = pre ++ e :: suf := by rw [hl]; simp
      obtain ⟨hd, hF⟩ := ih (e :: suf) hl' (fun q hq => hbig q (List.mem_append_left _ hq))
      have hpre : ∀ q ∈ pre, q.ok = true := fun q hq => (hok q (by rw [hl']; exact List.mem_append_left _ hq)).1
      have he := hok e (by rw [hl']; simp)
      obtain ⟨h1, h2⟩ := hdes pre e suf hl' hpre he.1
      obtain ⟨hex', hE⟩ := hent pre e suf hl'
      have hE := hE hpre
      have h2 := h2 (hex' ▸ hd)
      rw [lastX_snoc, hstore]
      refine ⟨h1, ?_⟩
      have hb1 := hbig e (by simp)
      have hsp : 0 < e.step := lt_of_lt_of_le hs0 he.2
      rw [le_div_iff₀ hsp] at hb1
      have h3 : δ ≤ ‖e.xNext - e.x‖ ^ 2 / (2 * e.used) := by
        rw [le_div_iff₀ (by linarith [hE.pos]), norm_sub_rev]
        have h4 : (P.tol * e.step) ^ 2 ≤ ‖e.x - e.xNext‖ ^ 2 := pow_le_pow_left₀ (by positivity) hb1 2
        have h5 : s * e.used ≤ e.step ^ 2 := by nlinarith [hE.le_step, he.2, hE.pos]
        have h6 := mul_le_mul_of_nonneg_left h5 (sq_nonneg P.tol)
        rw [hδ]
        nlinarith
      rw [← hex'] at hF
      simp only [hfg] at h2
      simp only [List.length_append, List.length_singleton, id]
      push_cast
      linarith
  have hw : res.why = .success := by
    cases hwy : res.why with
    | success => rfl
    | callback => exact absurd hcb (hns3 hwy)
    | exhausted =>
      obtain ⟨hd, hF⟩ := key res.log [] (by simp) (hns2 hwy)
      have hlen := (hnc (by rw [hwy]; simp)).1
      have h1 := hlow _ hd
      rw [hlen, hex hwy] at hF
      push_cast at hF
      linarith
  have hsuc := hsw.mpr hw
  obtain ⟨hlen, pre, e, hlog, -, hc, hiff⟩ := hnc (by rw [hw]; simp)
  refine ⟨res, hres, hsuc, ⟨_, hc, hiff.mp hsuc⟩, ?_, ?_⟩
  · have hpre : ∀ q ∈ pre, q.ok = true := fun q hq => (hok q (by rw [hlog]; exact List.mem_append_left _ hq)).1
    rw [hx, hlog, lastX_snoc, hstore]
    exact (hdes pre e [] hlog hpre (hok e (by rw [hlog]; simp)).1).1
  · obtain ⟨hd, hF⟩ := key pre [e] hlog (fun q hq => hns1 q (by rw [hlog]; simpa using hq))
    have h1 := hlow _ hd
    have : pre.length = res.nit := by rw [hlog] at hlen; simpa using hlen
    rw [this] at hF
    linarith

/-- **C89.** Backtracking proximal gradient on a smooth `f` (constant `L`) plus a convex `G` with exact `prox`, from a
point of the domain, without callback.  With `s = min(step_0, factor/L)` the least possible step, every iteration whose
certificate is at least `tol` decreases the objective by `tol² s / 2`; so if
`(max_iter + 1) * tol² s / 2 > F(x0) - inf F` the run returns `success=True` with a certificate below `tol`, after at most
`(F(x0) - inf F) / (tol² s / 2)` iterations before the last.  (`hm` is the condition under which no line search is exhausted, C45.) -/
theorem C89_success {P : PGArgs E} {G : ExtFun E} (hG : ExactProx P G) {f : E → ℝ} {g : E → E} {L low s : ℝ}
    (hfg : P.fg = fun x => (f x, g x)) (hL : 0 < L) (hq : UpperQuad f g L) (hstore : P.store = id)
    (hb : P.step = .str "backtracking") (hf0 : 0 < P.factor) (hf1 : P.factor ≤ 1) (hbt : 0 < P.btIter)
    (hm : (11 / 10) ^ (P.maxIter + 1) * ((18 / 10) / (initLipschitz P.fg P.x0).1) * P.factor ^ (P.btIter.toNat - 1) ≤ 1 / L)
    (hs : s = min ((18 / 10) / (initLipschitz P.fg P.x0).1) (P.factor / L))
    (hx0 : P.x0 ∈ G.dom) (hlow : ∀ y ∈ G.dom, low ≤ f y + G.val y) (hcb : P.callback = none) (htol : 0 < P.tol)
    (hiter : (f P.x0 + G.val P.x0) - low < (P.maxIter + 1) * (P.tol ^ 2 * s / 2)) :
    ∃ res, minimizeProximalGradient P = .ok res ∧ res.success = true ∧ (∃ c, res.certificate = some c ∧ c < P.tol) ∧
      res.x ∈ G.dom ∧ res.nit * (P.tol ^ 2 * s / 2) ≤ (f P.x0 + G.val P.x0) - low := by
  obtain ⟨res, hres, -, hok⟩ := C45_run hfg hL hq hstore hb hf0 hf1 hbt hm
  rw [← hs] at hok
  exact pg_reaches hG hfg hstore hb hf0 hbt
    (by rw [hs]; exact lt_min (div_pos (by norm_num) (initLipschitz_pos _ _)) (div_pos hf0 hL))
    hres hok hx0 hlow hcb htol hiter

/-- **C89 (defaults).** With the default `backtracking_factor=0.6` and `max_iter_backtracking=1000`, at most 500 iterations and any
`L ≤ 10^190`, the run succeeds if `(max_iter + 1) * tol² / 2 * min(1800, 0.36/L) > F(x0) - inf F`, and then the returned point is
nearly stationary: some subgradient `w` of `G` there has `‖∇f(x) + w‖ ≤ (1.1 + L s) tol`, `s` the last step. -/
theorem C89_defaults {P : PGArgs E} {G : ExtFun E} (hG : ExactProx P G) {f : E → ℝ} {g : E → E} {L low : ℝ}
    (hfg : P.fg = fun x => (f x, g x)) (hL : 0 < L) (hL2 : L ≤ 10 ^ 190) (hq : UpperQuad f g L) (hlip : LipGrad g L)
    (hstore : P.store = id) (hb : P.step = .str "backtracking") (hf : P.factor = 6 / 10) (hbt : P.btIter = 1000)
    (hmi : P.maxIter ≤ 500) (hx0 : P.x0 ∈ G.dom) (hlow : ∀ y ∈ G.dom, low ≤ f y + G.val y) (hcb : P.callback = none)
    (htol : 0 < P.tol)
    (hiter : (f P.x0 + G.val P.x0) - low < (P.maxIter + 1) * (P.tol ^ 2 * min 1800 ((36 / 100) / L) / 2)) :
    ∃ res, minimizeProximalGradient P = .ok res ∧ res.success = true ∧
      ∃ w s, IsSubgrad G res.x w ∧ res.stepSize = some s ∧ ‖g res.x + w‖ ≤ (11 / 10 + L * s) * P.tol := by
  obtain ⟨res, hres, -, hok⟩ := C45_defaults hfg hL hL2 hq hstore hb hf hbt hmi
  have hf0 : 0 < P.factor := by rw [hf]; norm_num
  obtain ⟨res1, h1, h2, -⟩ := pg_reaches hG hfg hstore hb hf0 (by omega)
    (lt_min (by norm_num) (by positivity)) hres hok hx0 hlow hcb htol hiter
  rw [hres] at h1
  simp only [Except.ok.injEq] at h1
  subst h1
  obtain ⟨res2, h3, -, h4⟩ := C46_success_partial hG hstore (Or.inl ⟨hb, hf0⟩) (by omega) hL.le
    (by rw [hfg]; exact hlip)
  rw [hres] at h3
  simp only [Except.ok.injEq] at h3
  subst h3
  refine ⟨res, hres, h2, ?_⟩
  have := h4 h2 (fun q hq => (hok q (List.mem_of_mem_dropLast hq)).1)
  rw [hfg] at this
  exact this

/-! ### C90 -/

/-- **C90 (one iteration).** Every iteration of a backtracking run whose line search, and those before it, succeeded contracts the
squared distance to a minimiser `y` of `f + G` by `1 - μ s`, `s` the step given to `prox`; only strong convexity of `f` is used. -/
theorem C90_contraction {P : PGArgs E} {G : ExtFun E} (hG : ExactProx P G) {f : E → ℝ} {g : E → E} {μ : ℝ}
    (hfg : P.fg = fun x => (f x, g x)) (hst : StrongGrad f g μ) (hstore : P.store = id)
    (hb : P.step = .str "backtracking") (hf0 : 0 < P.factor) (hbt : 0 < P.btIter)
    {y : E} (hy : y ∈ G.dom) (hmin : ∀ z ∈ G.dom, f y + G.val y ≤ f z + G.val z) :
    ∃ res, minimizeProximalGradient P = .ok res ∧
      ∀ pre e suf, res.log = pre ++ e :: suf → (∀ q ∈ pre ++ [e], q.ok = true) →
        ‖e.xNext - y‖ ^ 2 ≤ (1 - μ * e.used) * ‖e.x - y‖ ^ 2 := by
  obtain ⟨res, hres, -, hent, -⟩ := pg_run hstore (Or.inl ⟨hb, hf0⟩) hbt
  refine ⟨res, hres, fun pre e suf hl hok => ?_⟩
  have hE := (hent pre e suf hl).2 (fun q hq => hok q (List.mem_append_left _ hq))
  have hp := hE.isProx hG
  have h := prox_grad_ineq hG.1 hE.pos hp (hE.decrease_used hb (hok e (by simp))) hy
  have h1 := hmin _ hp.1
  have h2 := hst e.x y
  simp only [hfg] at h
  have hpos := hE.pos
  rw [norm_sub_rev y, norm_sub_rev y] at h
  rw [norm_sub_rev y] at h2
  have h3 : 0 ≤ (‖e.x - y‖ ^ 2 - ‖e.xNext - y‖ ^ 2) / (2 * e.used) - μ / 2 * ‖e.x - y‖ ^ 2 := by linarith
  have h4 := mul_nonneg (by linarith : 0 ≤ 2 * e.used) h3
  rw [mul_sub, mul_div_cancel₀ _ (by linarith : (2 * e.used : ℝ) ≠ 0)] at h4
  linarith

/-- The linear rate of a backtracking run all of whose line searches succeed with steps at least `s`. -/
theorem pg_linear_core {P : PGArgs E} {G : ExtFun E} (hG : ExactProx P G) {f : E → ℝ} {g : E → E} {μ s : ℝ}
    (hfg : P.fg = fun x => (f x, g x)) (hst : StrongGrad f g μ) (hμ : 0 ≤ μ) (hρ : 0 ≤ 1 - μ * s / (11 / 10))
    (hstore : P.store = id) (hb : P.step = .str "backtracking") (hf0 : 0 < P.factor) (hbt : 0 < P.btIter)
    {y : E} (hy : y ∈ G.dom) (hmin : ∀ z ∈ G.dom, f y + G.val y ≤ f z + G.val z) {res : PGResult E}
    (hres : minimizeProximalGradient P = .ok res) (hok : ∀ e ∈ res.log, e.ok = true ∧ s ≤ e.step) :
    ∃ k, ‖res.x - y‖ ^ 2 ≤ (1 - μ * s / (11 / 10)) ^ k * ‖P.x0 - y‖ ^ 2 ∧
      (res.why ≠ .callback → k = res.nit + 1) ∧ (res.why = .callback → k = res.nit ∧ P.callback ≠ none) := by
  obtain ⟨res1, hres1, hx, hent, -, hcall, hnc, -⟩ := pg_run hstore (Or.inl ⟨hb, hf0⟩) hbt
  rw [hres] at hres1
  simp only [Except.ok.injEq] at hres1
  subst hres1
  obtain ⟨res2, hres2, hcon⟩ := C90_contraction hG hfg hst hstore hb hf0 hbt hy hmin
  rw [hres] at hres2
  simp only [Except.ok.injEq] at hres2
  subst hres2
  refine ⟨res.log.length, ?_, fun h => (hnc h).1, fun h => ⟨(hcall h).2, (hcall h).1⟩⟩
  have key : ∀ (pre suf : List (PGEntry E)), res.log = pre ++ suf →
      ‖lastX P pre - y‖ ^ 2 ≤ (1 - μ * s / (11 / 10)) ^ pre.length * ‖P.x0 - y‖ ^ 2 := by
    intro pre
    induction pre using List.reverseRecOn with
    | nil => intro suf _; simp [lastX]
    | append_singleton pre e ih =>
      intro suf hl
      have hl' : res.log = pre ++ e :: suf := by rw [hl]; simp
      have h1 := ih (e :: suf) hl'
      have hmem : ∀ q ∈ pre ++ [e], q ∈ res.log := fun q hq => by rw [hl]; exact List.mem_append_left _ hq
      have h2 := hcon pre e suf hl' (fun q hq => (hok q (hmem q hq)).1)
      obtain ⟨hex, hE⟩ := hent pre e suf hl'
      have hE := hE (fun q hq => (hok q (hmem q (List.mem_append_left _ hq))).1)
      have h3 : s / (11 / 10) ≤ e.used := by
        have := (hok e (hmem e (by simp))).2
        rw [div_le_iff₀ (by norm_num)]
        linarith [hE.step_le]
      have h4 : 1 - μ * e.used ≤ 1 - μ * s / (11 / 10) := by
        have := mul_le_mul_of_nonneg_left h3 hμ
        rw [mul_div_assoc]; linarith
      rw [lastX_snoc, hstore, List.length_append, List.length_singleton, pow_succ]
      simp only [id]
      rw [← hex] at h1
      calc ‖e.xNext - y‖ ^ 2 ≤ (1 - μ * e.used) * ‖e.x - y‖ ^ 2 := h2
        _ ≤ (1 - μ * s / (11 / 10)) * ‖e.x - y‖ ^ 2 := mul_le_mul_of_nonneg_right h4 (sq_nonneg _)
        _ ≤ (1 - μ * s / (11 / 10)) * ((1 - μ * s / (11 / 10)) ^ pre.length * ‖P.x0 - y‖ ^ 2) :=
            mul_le_mul_of_nonneg_left h1 hρ
        _ = _ := by ring
  rw [hx]
  exact key res.log [] (by simp)

/-- **C90 (rate).** If `f` is `L`-smooth and `μ`-strongly convex and the line searches are long enough (C45), the returned point of a run
with `k` iterations satisfies `‖x - y‖² ≤ (1 - μ s / 1.1)^k ‖x0 - y‖²` for the minimiser `y` of `f + G`, with
`s = min(step_0, factor/L)`; `k = nit + 1` unless a callback stopped the run. -/
theorem C90_linear_rate {P : PGArgs E} {G : ExtFun E} (hG : ExactProx P G) {f : E → ℝ} {g : E → E} {L μ s : ℝ}
    (hfg : P.fg = fun x => (f x, g x)) (hL : 0 < L) (hq : UpperQuad f g L) (hst : StrongGrad f g μ) (hμ : 0 ≤ μ) (hμL : μ ≤ L)
    (hstore : P.store = id) (hb : P.step = .str "backtracking") (hf0 : 0 < P.factor) (hf1 : P.factor ≤ 1) (hbt : 0 < P.btIter)
    (hm : (11 / 10) ^ (P.maxIter + 1) * ((18 / 10) / (initLipschitz P.fg P.x0).1) * P.factor ^ (P.btIter.toNat - 1) ≤ 1 / L)
    (hs : s = min ((18 / 10) / (initLipschitz P.fg P.x0).1) (P.factor / L))
    {y : E} (hy : y ∈ G.dom) (hmin : ∀ z ∈ G.dom, f y + G.val y ≤ f z + G.val z) :
    ∃ res, minimizeProximalGradient P = .ok res ∧ ∃ k, ‖res.x - y‖ ^ 2 ≤ (1 - μ * s / (11 / 10)) ^ k * ‖P.x0 - y‖ ^ 2 ∧
      (res.why ≠ .callback → k = res.nit + 1) ∧ (res.why = .callback → k = res.nit) := by
  obtain ⟨res, hres, -, hok⟩ := C45_run hfg hL hq hstore hb hf0 hf1 hbt hm
  rw [← hs] at hok
  have hρ : 0 ≤ 1 - μ * s / (11 / 10) := by
    have h1 : s ≤ P.factor / L := by rw [hs]; exact min_le_right _ _
    have h2 : μ * s ≤ L * (P.factor / L) := by
      have hs0 : 0 ≤ s := by
        rw [hs]; exact le_min (div_pos (by norm_num) (initLipschitz_pos _ _)).le (div_pos hf0 hL).le
      exact mul_le_mul hμL h1 hs0 hL.le
    rw [mul_div_cancel₀ _ hL.ne'] at h2
    linarith
  obtain ⟨k, h1, h2, h3⟩ := pg_linear_core hG hfg hst hμ hρ hstore hb hf0 hbt hy hmin hres hok
  exact ⟨res, hres, k, h1, h2, fun h => (h3 h).1⟩

/-- C90 with the default parameters: `‖x - y‖² ≤ (1 - μ min(1800, 0.36/L) / 1.1)^k ‖x0 - y‖²`. -/
theorem C90_defaults {P : PGArgs E} {G : ExtFun E} (hG : ExactProx P G) {f : E → ℝ} {g : E → E} {L μ : ℝ}
    (hfg : P.fg = fun x => (f x, g x)) (hL : 0 < L) (hL2 : L ≤ 10 ^ 190) (hq : UpperQuad f g L) (hst : StrongGrad f g μ)
    (hμ : 0 ≤ μ) (hμL : μ ≤ L) (hstore : P.store = id) (hb : P.step = .str "backtracking") (hf : P.factor = 6 / 10)
    (hbt : P.btIter = 1000) (hmi : P.maxIter ≤ 500)
    {y : E} (hy : y ∈ G.dom) (hmin : ∀ z ∈ G.dom, f y + G.val y ≤ f z + G.val z) :
    ∃ res, minimizeProximalGradient P = .ok res ∧
      ∃ k, ‖res.x - y‖ ^ 2 ≤ (1 - μ * min 1800 ((36 / 100) / L) / (11 / 10)) ^ k * ‖P.x0 - y‖ ^ 2 ∧
        (res.why ≠ .callback → k = res.nit + 1) ∧ (res.why = .callback → k = res.nit ∧ P.callback ≠ none) := by
  obtain ⟨res, hres, -, hok⟩ := C45_defaults hfg hL hL2 hq hstore hb hf hbt hmi
  have hf0 : 0 < P.factor := by rw [hf]; norm_num
  refine ⟨res, hres, pg_linear_core hG hfg hst hμ ?_ hstore hb hf0 (by omega) hy hmin hres hok⟩
  have h2 : μ * min 1800 ((36 / 100) / L) ≤ L * ((36 / 100) / L) :=
    mul_le_mul hμL (min_le_right _ _) (le_min (by norm_num) (by positivity)) hL.le
  rw [mul_div_cancel₀ _ hL.ne'] at h2
  linarith

/-! ### Instances -/

/-- The quadratic run used below satisfies the hypotheses of C89 and C90 with `L = μ = 1`. -/
noncomputable def termArgs (n : ℕ) : PGArgs ℝ := { quadArgs 1 (6 / 10) (1 / 10) n with btIter := 1000 }

theorem termArgs_fg (n : ℕ) : (termArgs n).fg = fun x => (x ^ 2 / 2, x) := by
  funext x
  show ((1 : ℝ) / 2 * x ^ 2, 1 * x) = _
  rw [one_mul]; congr 1; ring

theorem half_upper : UpperQuad (fun x : ℝ => x ^ 2 / 2) (fun x => x) 1 := by
  intro x y
  show y ^ 2 / 2 ≤ x ^ 2 / 2 + (y - x) * x + 1 / 2 * |y - x| ^ 2
  rw [sq_abs]; nlinarith

theorem half_strong : StrongGrad (fun x : ℝ => x ^ 2 / 2) (fun x => x) 1 := by
  intro x y
  show x ^ 2 / 2 + (y - x) * x + 1 / 2 * |y - x| ^ 2 ≤ y ^ 2 / 2
  rw [sq_abs]; nlinarith

example : ∃ res, minimizeProximalGradient (termArgs 499) = .ok res ∧ res.success = true := by
  obtain ⟨res, h1, h2, -⟩ := C89_defaults (P := termArgs 499) (exactProx_none rfl) (termArgs_fg 499) (L := 1) (low := 0) one_pos (by norm_num)
    half_upper (fun x y => by rw [one_mul]) rfl rfl rfl rfl (by norm_num [termArgs, quadArgs]) trivial
    (fun y _ => by simp only [ExtFun.zero]; positivity) rfl (by norm_num [termArgs, quadArgs]) (by
      rw [min_eq_right (by norm_num)]
      norm_num [termArgs, quadArgs, ExtFun.zero])
  exact ⟨res, h1, h2⟩

example : ∃ res, minimizeProximalGradient { termArgs 10 with btIter := 10 } = .ok res ∧ ∃ k, ‖res.x - 0‖ ^ 2 ≤
    (1 - 1 * (6 / 10) / (11 / 10)) ^ k * ‖(1 : ℝ) - 0‖ ^ 2 := by
  have h1 : (initLipschitz (termArgs 10).fg (termArgs 10).x0).1 = 1 :=
    quad_initLip (c := 1) (factor := 6 / 10) (tol := 1 / 10) (m := 10) (by norm_num) (by norm_num)
  obtain ⟨res, h1, k, h2, -⟩ := C90_linear_rate (P := { termArgs 10 with btIter := 10 }) (exactProx_none rfl) (termArgs_fg 10) (L := 1) (μ := 1)
    (s := 6 / 10) one_pos half_upper half_strong zero_le_one le_rfl rfl rfl (by norm_num [termArgs, quadArgs])
    (by norm_num [termArgs, quadArgs]) (by norm_num) (by
      simp only
      rw [h1, show ((10 : ℤ).toNat - 1) = 9 from rfl]
      norm_num [termArgs, quadArgs]) (by simp only; rw [h1]; norm_num [termArgs, quadArgs]) (y := (0 : ℝ)) trivial
    (fun z _ => by simp only [ExtFun.zero]; nlinarith [sq_nonneg z])
  exact ⟨res, h1, k, h2⟩

end Copt
