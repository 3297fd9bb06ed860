import Mathlib.Algebra.Order.BigOperators.Group.List
import Mathlib.Tactic.Linarith
import Mathlib.Tactic.Positivity
import Verif.Model.ProxGrad
import Verif.Proof.Convex

/-! # Proofs about the proximal gradient loop -/

set_option linter.unusedSectionVars false

namespace Copt

open Spec

open scoped InnerProductSpace

variable {E : Type} [NormedAddCommGroup E] [InnerProductSpace ℝ E]

/-! ### Line search -/

theorem lsTest_pos {fNext fk : ℝ} {grad d : E} {step : ℝ} (hs : 0 < step) :
    lsTest fNext fk grad d step ↔ fNext ≤ fk + ⟪grad, d⟫_ℝ + ‖d‖ ^ 2 / (2 * step) := by
  unfold lsTest
  rw [if_neg hs.ne', real_inner_self_eq_norm_sq]

/-- What every line search guarantees: the returned point is the proximal gradient step with the step `used`, the
values returned are those of that point if the search succeeded, and then the decrease test holds. -/
theorem lsLoop_spec (fg : E → ℝ × E) (prox : E → ℝ → E) (x grad : E) (fk : ℝ) {factor : ℝ} (hf0 : 0 < factor) :
    ∀ (k : ℕ) (xNext : E) (used step : ℝ), xNext = prox (x - used • grad) used → 0 < used → used ≤ step →
      step ≤ 11 / 10 * used →
      let r := lsLoop fg prox x grad fk factor k xNext used step
      r.xNext = prox (x - r.used • grad) r.used ∧ 0 < r.used ∧ r.used ≤ r.step ∧ r.step ≤ 11 / 10 * r.used ∧
      (r.ok = true → (r.fNext, r.gradNext) = fg r.xNext ∧
        r.fNext ≤ fk + ⟪grad, r.xNext - x⟫_ℝ + ‖r.xNext - x‖ ^ 2 / (2 * r.step)) := by
  intro k
  induction k with
  | zero =>
    intro xNext used step hx hu hus hsu
    rw [lsLoop]
    have hs : 0 < step := lt_of_lt_of_le hu hus
    simp only
    split
    · rename_i h
      rw [lsTest_pos hs] at h
      exact ⟨hx, hu, hus, hsu, fun _ => ⟨rfl, h⟩⟩
    · have : 0 < step * factor := mul_pos hs hf0
      exact ⟨rfl, this, le_rfl, by linarith, by simp⟩
  | succ k ih =>
    intro xNext used step hx hu hus hsu
    rw [lsLoop]
    have hs : 0 < step := lt_of_lt_of_le hu hus
    simp only
    split
    · rename_i h
      rw [lsTest_pos hs] at h
      exact ⟨hx, hu, hus, hsu, fun _ => ⟨rfl, h⟩⟩
    · have : 0 < step * factor := mul_pos hs hf0
      exact ih _ _ _ rfl this le_rfl (by linarith)

/-- Under the quadratic upper bound a test with a step of at most `1/L` passes; so a search with enough iterations succeeds,
and the step stays above `min(step, factor/L)`. -/
theorem lsLoop_smooth {f : E → ℝ} {g : E → E} {L : ℝ} (hL : 0 < L) (hq : UpperQuad f g L) (prox : E → ℝ → E) (x : E)
    {factor : ℝ} (hf0 : 0 < factor) (hf1 : factor ≤ 1) :
    ∀ (k : ℕ) (xNext : E) (used step : ℝ), 0 < step →
      let r := lsLoop (fun x => (f x, g x)) prox x (g x) (f x) factor k xNext used step
      (step * factor ^ k ≤ 1 / L → r.ok = true) ∧ min step (factor / L) ≤ r.step ∧ r.step ≤ step := by
  intro k
  have hpass : ∀ (xNext : E) (step : ℝ), 0 < step → step ≤ 1 / L → lsTest (f xNext) (f x) (g x) (xNext - x) step := by
    intro xNext step hs hsL
    rw [lsTest_pos hs]
    have h1 := hq x xNext
    have h2 : L / 2 ≤ 1 / (2 * step) := by
      rw [div_le_div_iff₀ two_pos (by linarith)]
      rw [le_div_iff₀ hL] at hsL
      nlinarith
    have h3 := mul_le_mul_of_nonneg_right h2 (sq_nonneg ‖xNext - x‖)
    have h4 : 1 / (2 * step) * ‖xNext - x‖ ^ 2 = ‖xNext - x‖ ^ 2 / (2 * step) := by ring
    linarith
  have hlow : ∀ (xNext : E) (step : ℝ), 0 < step → ¬ lsTest (f xNext) (f x) (g x) (xNext - x) step →
      factor / L ≤ step * factor := by
    intro xNext step hs hn
    have : ¬ step ≤ 1 / L := fun h => hn (hpass _ _ hs h)
    push Not at this
    have := mul_le_mul_of_nonneg_right this.le hf0.le
    rwa [div_mul_eq_mul_div, one_mul] at this
  induction k with
  | zero =>
    intro xNext used step hs
    rw [lsLoop]
    simp only
    split
    · exact ⟨fun _ => rfl, min_le_left _ _, le_rfl⟩
    · rename_i h
      refine ⟨fun h' => absurd (hpass _ _ hs (by simpa using h')) h, ?_, by nlinarith⟩
      exact le_trans (min_le_right _ _) (hlow _ _ hs h)
  | succ k ih =>
    intro xNext used step hs
    rw [lsLoop]
    simp only
    split
    · exact ⟨fun _ => rfl, min_le_left _ _, le_rfl⟩
    · rename_i h
      have hs' : 0 < step * factor := mul_pos hs hf0
      obtain ⟨h1, h2, h3⟩ := ih (prox (x - (step * factor) • g x) (step * factor)) (step * factor) (step * factor) hs'
      have hl := hlow _ _ hs h
      refine ⟨fun h' => h1 (by rw [pow_succ'] at h'; rwa [mul_assoc]), ?_, le_trans h3 (by nlinarith)⟩
      exact le_trans (le_trans (min_le_right _ _) (le_min hl le_rfl)) h2

/-! ### The loop -/

/-- Induction over the loop; `rem` is `max_iter - n_iterations`. -/
theorem pgLoop_induct {P : PGArgs E} (I : ℕ → PGState E → Prop) (Q : PGState E → PGWhy → Prop)
    (hstop : ∀ rem st st' w, I rem st → pgBody P st = .ok (st', some w) → Q st' w)
    (hnext : ∀ rem st st', I (rem + 1) st → pgBody P st = .ok (st', none) → I rem { st' with nit := st'.nit + 1 })
    (hexh : ∀ st st', I 0 st → pgBody P st = .ok (st', none) → Q st' .exhausted) :
    ∀ rem st, I rem st → ∀ st' w, pgLoop P rem st = .ok (st', w) → Q st' w := by
  intro rem
  induction rem with
  | zero =>
    intro st hI st' w h
    rw [pgLoop] at h
    cases hb : pgBody P st with
    | error e => rw [hb] at h; simp [bind, Except.bind] at h
    | ok r =>
      rw [hb] at h
      obtain ⟨st1, w1⟩ := r
      cases w1 with
      | some w1 =>
        simp only [bind, Except.bind, pure, Except.pure, Except.ok.injEq, Prod.mk.injEq] at h
        rw [← h.1, ← h.2]; exact hstop _ _ _ _ hI hb
      | none =>
        simp only [bind, Except.bind, pure, Except.pure, Except.ok.injEq, Prod.mk.injEq] at h
        rw [← h.1, ← h.2]; exact hexh _ _ hI hb
  | succ rem ih =>
    intro st hI st' w h
    rw [pgLoop] at h
    cases hb : pgBody P st with
    | error e => rw [hb] at h; simp [bind, Except.bind] at h
    | ok r =>
      rw [hb] at h
      obtain ⟨st1, w1⟩ := r
      cases w1 with
      | some w1 =>
        simp only [bind, Except.bind, pure, Except.pure, Except.ok.injEq, Prod.mk.injEq] at h
        rw [← h.1, ← h.2]; exact hstop _ _ _ _ hI hb
      | none =>
        simp only [bind, Except.bind] at h
        exact ih _ (hnext _ _ _ hI hb) st' w h

/-- Totality of the loop. -/
theorem pgLoop_total {P : PGArgs E} (I : ℕ → PGState E → Prop)
    (hbody : ∀ rem st, I rem st → ∃ r, pgBody P st = .ok r)
    (hnext : ∀ rem st st', I (rem + 1) st → pgBody P st = .ok (st', none) → I rem { st' with nit := st'.nit + 1 }) :
    ∀ rem st, I rem st → ∃ r, pgLoop P rem st = .ok r := by
  intro rem
  induction rem with
  | zero =>
    intro st hI
    obtain ⟨⟨st1, w1⟩, hb⟩ := hbody _ st hI
    rw [pgLoop, hb]
    cases w1 <;> exact ⟨_, rfl⟩
  | succ rem ih =>
    intro st hI
    obtain ⟨⟨st1, w1⟩, hb⟩ := hbody _ st hI
    rw [pgLoop, hb]
    cases w1 with
    | some w1 => exact ⟨_, rfl⟩
    | none => exact ih _ (hnext _ _ _ hI hb)

/-- The three ways one pass of the loop can end. -/
theorem pgBody_cases {P : PGArgs E} {st st' : PGState E} {w : Option PGWhy} (h : pgBody P st = .ok (st', w)) :
    (w = some .callback ∧ (pgCallback P st).2 = true ∧ st' = (pgCallback P st).1) ∨
    ((pgCallback P st).2 = false ∧ ∃ r, pgStepBranch P (pgCallback P st).1 = .ok r ∧ st' = pgNext P (pgCallback P st).1 r ∧
      ((w = some .success ∧ certLt st'.certificate P.tol) ∨ (w = none ∧ ¬ certLt st'.certificate P.tol))) := by
  unfold pgBody at h
  simp only [pure, Except.pure] at h
  split at h
  · rename_i hc
    simp only [Except.ok.injEq, Prod.mk.injEq] at h
    exact Or.inl ⟨h.2.symm, hc, h.1.symm⟩
  · rename_i hc
    cases hr : pgStepBranch P (pgCallback P st).1 with
    | error e => rw [hr] at h; simp [bind, Except.bind] at h
    | ok r =>
      rw [hr] at h
      simp only [bind, Except.bind] at h
      refine Or.inr ⟨by simpa using hc, r, rfl, ?_⟩
      split at h
      · rename_i hlt
        simp only [Except.ok.injEq, Prod.mk.injEq] at h
        refine ⟨h.1.symm, Or.inl ⟨h.2.symm, ?_⟩⟩
        rw [← h.1]; exact hlt
      · rename_i hlt
        simp only [Except.ok.injEq, Prod.mk.injEq] at h
        refine ⟨h.1.symm, Or.inr ⟨h.2.symm, ?_⟩⟩
        rw [← h.1]; exact hlt

/-- The callback changes nothing but its own count. -/
theorem pgCallback_eq (P : PGArgs E) (st : PGState E) :
    (pgCallback P st).1.x = st.x ∧ (pgCallback P st).1.fk = st.fk ∧ (pgCallback P st).1.grad = st.grad ∧
    (pgCallback P st).1.stepSize = st.stepSize ∧ (pgCallback P st).1.certificate = st.certificate ∧
    (pgCallback P st).1.nit = st.nit ∧ (pgCallback P st).1.trace = st.trace ∧ (pgCallback P st).1.log = st.log ∧
    (pgCallback P st).1.warnLs = st.warnLs := by
  unfold pgCallback
  split <;> exact ⟨rfl, rfl, rfl, rfl, rfl, rfl, rfl, rfl, rfl⟩

/-- Result of a run in terms of the loop. -/
theorem minimizePG_ok {P : PGArgs E} {res : PGResult E} (h : minimizeProximalGradient P = .ok res) :
    0 < P.btIter ∧ ∃ st w, pgLoop P P.maxIter (pgInit P) = .ok (st, w) ∧
      res = { x := st.x, success := w = .success, certificate := st.certificate, nit := st.nit,
              stepSize := st.stepSize, trace := st.trace, warned := false, why := w, log := st.log, warnLs := st.warnLs } := by
  unfold minimizeProximalGradient at h
  split at h
  · cases h
  · rename_i hb
    cases hr : pgLoop P P.maxIter (pgInit P) with
    | error e => rw [hr] at h; simp [bind, Except.bind] at h
    | ok r =>
      rw [hr] at h
      simp only [bind, Except.bind, pure, Except.pure, Except.ok.injEq] at h
      exact ⟨by omega, r.1, r.2, rfl, h.symm⟩

/-! ### The initial step -/

theorem initLipLoop_pos (f : E → ℝ) (x0 grad0 : E) (f0 : ℝ) : ∀ (k : ℕ) (L0 fT : ℝ) (ev : ℕ), 0 < L0 →
    0 < (initLipLoop f x0 grad0 f0 k L0 fT ev).1 := by
  intro k
  induction k with
  | zero => intro L0 fT ev h; exact h
  | succ k ih =>
    intro L0 fT ev h
    rw [initLipLoop]
    split
    · exact h
    · exact ih _ _ _ (by positivity)

theorem initLipschitz_pos (fg : E → ℝ × E) (x0 : E) : 0 < (initLipschitz fg x0).1 :=
  initLipLoop_pos _ _ _ _ _ _ _ _ (by norm_num)

/-! ### Log of a run -/

/-- Where an iteration starts: the starting point, or the previous candidate as stored in `x`. -/
def lastX (P : PGArgs E) (log : List (PGEntry E)) : E :=
  match log.getLast? with
  | none => P.x0
  | some e => P.store e.xNext

@[simp] theorem lastX_snoc (P : PGArgs E) (log : List (PGEntry E)) (e : PGEntry E) : lastX P (log ++ [e]) = P.store e.xNext := by
  simp [lastX]

theorem append_singleton_split {α : Type} {log pre suf : List α} {e' e : α} (h : log ++ [e'] = pre ++ e :: suf) :
    (suf = [] ∧ pre = log ∧ e = e') ∨ ∃ suf', suf = suf' ++ [e'] ∧ log = pre ++ e :: suf' := by
  rcases List.eq_nil_or_concat suf with rfl | ⟨suf', b, rfl⟩
  · have := List.append_inj' h rfl
    exact Or.inl ⟨rfl, this.1.symm, by simpa using this.2.symm⟩
  · have h' : log ++ [e'] = (pre ++ e :: suf') ++ [b] := by simpa using h
    have := List.append_inj' h' rfl
    exact Or.inr ⟨suf', by simp at this ⊢; exact this.2.symm, this.1⟩

/-- Admissible step arguments: backtracking with a positive factor, or a callable returning positive numbers. -/
def PGStepOk (P : PGArgs E) : Prop :=
  (P.step = .str "backtracking" ∧ 0 < P.factor) ∨ ∃ rule, P.step = .callable rule ∧ ∀ i st, 0 < rule i st

/-- What the record of one iteration satisfies when it started from fresh values of `f` and its gradient. -/
structure EntryFacts (P : PGArgs E) (e : PGEntry E) : Prop where
  prox : e.xNext = P.proxFn (e.x - e.used • (P.fg e.x).2) e.used
  pos : 0 < e.used
  le_step : e.used ≤ e.step
  step_le : e.step ≤ 11 / 10 * e.used
  decrease : P.step = .str "backtracking" → e.ok = true →
    (P.fg e.xNext).1 ≤ (P.fg e.x).1 + ⟪(P.fg e.x).2, e.xNext - e.x⟫_ℝ + ‖e.xNext - e.x‖ ^ 2 / (2 * e.step)

/-- Invariant of the loop, for floating point storage. -/
structure PGInv (P : PGArgs E) (st : PGState E) : Prop where
  x : st.x = lastX P st.log
  fresh : (∀ q ∈ st.log, q.ok = true) → (st.fk, st.grad) = P.fg st.x
  entries : ∀ pre e suf, st.log = pre ++ e :: suf → e.x = lastX P pre ∧ ((∀ q ∈ pre, q.ok = true) → EntryFacts P e)
  step : P.step = .str "backtracking" → ∃ t, 0 < t ∧ st.stepSize = some t

theorem PGInv.cb {P : PGArgs E} {st : PGState E} (h : PGInv P st) : PGInv P (pgCallback P st).1 := by
  obtain ⟨h1, h2, h3, h4, -, -, -, h8, -⟩ := pgCallback_eq P st
  exact ⟨by rw [h1, h8]; exact h.x, by rw [h1, h2, h3, h8]; exact h.fresh, by rw [h8]; exact h.entries,
    by rw [h4]; exact h.step⟩

theorem PGInv.nit {P : PGArgs E} {st : PGState E} (h : PGInv P st) (m : ℕ) : PGInv P { st with nit := m } :=
  ⟨h.x, h.fresh, h.entries, h.step⟩

/-- What the step branch returns from a state satisfying the invariant. -/
theorem pgStepBranch_facts {P : PGArgs E} (hs : PGStepOk P) {st : PGState E} (h : PGInv P st) :
    ∃ r, pgStepBranch P st = .ok r ∧ r.xNext = P.proxFn (st.x - r.used • st.grad) r.used ∧ 0 < r.used ∧ r.used ≤ r.step ∧
      r.step ≤ 11 / 10 * r.used ∧ (r.ok = true → (r.fNext, r.gradNext) = P.fg r.xNext) ∧
      (P.step = .str "backtracking" → r.ok = true →
        r.fNext ≤ st.fk + ⟪st.grad, r.xNext - st.x⟫_ℝ + ‖r.xNext - st.x‖ ^ 2 / (2 * r.step)) := by
  rcases hs with ⟨hs, hf⟩ | ⟨rule, hs, hr⟩
  · obtain ⟨t, ht, hst⟩ := h.step hs
    have hb : pgStepBranch P st = .ok (pgSearch P.fg P.proxFn st.x st.grad st.fk P.factor P.btIter.toNat t) := by
      unfold pgStepBranch; rw [hs]; simp only [if_true, hst]
    obtain ⟨h1, h2, h3, h4, h5⟩ := lsLoop_spec P.fg P.proxFn st.x st.grad st.fk hf (P.btIter.toNat - 1)
      (P.proxFn (st.x - t • st.grad) t) t (t * (11 / 10)) rfl ht (by linarith) (by linarith)
    exact ⟨_, hb, h1, h2, h3, h4, fun hok => (h5 hok).1, fun _ hok => (h5 hok).2⟩
  · refine ⟨_, by unfold pgStepBranch; rw [hs], rfl, hr _ _, le_rfl, ?_, fun _ => rfl, fun hb => ?_⟩
    · have := hr st.nit st
      show rule st.nit st ≤ 11 / 10 * rule st.nit st
      linarith
    · rw [hs] at hb; cases hb

theorem PGInv.next {P : PGArgs E} (hstore : P.store = id) {st : PGState E} (h : PGInv P st) {r : LsOut E}
    (h1 : r.xNext = P.proxFn (st.x - r.used • st.grad) r.used) (h2 : 0 < r.used) (h3 : r.used ≤ r.step)
    (h4 : r.step ≤ 11 / 10 * r.used) (h5 : r.ok = true → (r.fNext, r.gradNext) = P.fg r.xNext)
    (h6 : P.step = .str "backtracking" → r.ok = true →
        r.fNext ≤ st.fk + ⟪st.grad, r.xNext - st.x⟫_ℝ + ‖r.xNext - st.x‖ ^ 2 / (2 * r.step)) : PGInv P (pgNext P st r) := by
  refine ⟨?_, ?_, ?_, fun _ => ⟨r.step, by linarith, rfl⟩⟩
  · show P.store r.xNext = lastX P (st.log ++ [_])
    rw [lastX_snoc]
  · intro hall
    show (r.fNext, r.gradNext) = P.fg (P.store r.xNext)
    rw [hstore]
    exact h5 (hall ⟨st.x, r.xNext, r.used, r.step, r.ok⟩ (by simp [pgNext]))
  · intro pre e suf hlog
    rcases append_singleton_split (show st.log ++ [_] = pre ++ e :: suf from hlog) with ⟨-, rfl, rfl⟩ | ⟨suf', -, hl⟩
    · refine ⟨h.x, fun hall => ?_⟩
      have hfr := h.fresh hall
      have hg : st.grad = (P.fg st.x).2 := by rw [← hfr]
      have hk : st.fk = (P.fg st.x).1 := by rw [← hfr]
      refine ⟨by rw [← hg]; exact h1, h2, h3, h4, fun hb hok => ?_⟩
      have h7 := h6 hb hok
      have h8 := h5 hok
      rw [← hg, ← hk]
      show (P.fg r.xNext).1 ≤ _
      rw [← h8]; exact h7
    · exact h.entries pre e suf' hl

theorem PGInv.init (P : PGArgs E) : PGInv P (pgInit P) := by
  refine ⟨rfl, fun _ => rfl, fun pre e suf h => ?_, fun hb => ?_⟩
  · simp [pgInit] at h
  · refine ⟨(18 / 10) / (initLipschitz P.fg P.x0).1, ?_, by simp only [pgInit, pgStep0, hb, if_true]⟩
    exact div_pos (by norm_num) (initLipschitz_pos _ _)

/-- What one pass does, from a state satisfying the invariant. -/
theorem PGInv.body {P : PGArgs E} (hstore : P.store = id) (hs : PGStepOk P) {st : PGState E} (h : PGInv P st) :
    ∃ st' w, pgBody P st = .ok (st', w) ∧ PGInv P st' ∧ st'.nit = st.nit ∧
      ((w = some .callback ∧ st'.log = st.log ∧ P.callback ≠ none) ∨
       (w ≠ some .callback ∧ w ≠ some .exhausted ∧ (∃ e, st'.log = st.log ++ [e] ∧ e.x = st.x ∧ st'.x = e.xNext ∧ st'.stepSize = some e.step ∧
          st'.certificate = some (‖e.x - e.xNext‖ / e.step)) ∧
        (w = some .success ↔ certLt st'.certificate P.tol))) := by
  obtain ⟨r, hr, h1, h2, h3, h4, h5, h6⟩ := pgStepBranch_facts hs h.cb
  obtain ⟨e1, -, -, -, -, e6, -, e8, -⟩ := pgCallback_eq P st
  by_cases hc : (pgCallback P st).2 = true
  · refine ⟨_, _, by unfold pgBody; rw [if_pos hc]; rfl, h.cb, e6, Or.inl ⟨rfl, e8, ?_⟩⟩
    intro hn
    unfold pgCallback at hc
    rw [hn] at hc
    cases hc
  · have hI := h.cb.next hstore h1 h2 h3 h4 h5 h6
    have hne : r.step ≠ 0 := by linarith
    have hent : ∃ e, (pgNext P (pgCallback P st).1 r).log = st.log ++ [e] ∧ e.x = st.x ∧
        (pgNext P (pgCallback P st).1 r).x = e.xNext ∧ (pgNext P (pgCallback P st).1 r).stepSize = some e.step ∧
          (pgNext P (pgCallback P st).1 r).certificate = some (‖e.x - e.xNext‖ / e.step) := by
      refine ⟨⟨(pgCallback P st).1.x, r.xNext, r.used, r.step, r.ok⟩, ?_, e1, ?_, rfl, ?_⟩
      · show (pgCallback P st).1.log ++ _ = _; rw [e8]
      · show P.store r.xNext = _; rw [hstore]; rfl
      · show pgCert _ _ _ = _
        unfold pgCert
        have hpos : 0 < r.step := by linarith
        rw [if_neg hne, norm_smul, norm_inv, Real.norm_eq_abs, abs_of_pos hpos, inv_mul_eq_div]
    by_cases hlt : certLt (pgNext P (pgCallback P st).1 r).certificate P.tol
    · refine ⟨_, some .success, ?_, hI, e6, Or.inr ⟨by simp, by simp, hent, by simp [hlt]⟩⟩
      unfold pgBody
      rw [if_neg hc, hr]
      simp only [bind, Except.bind]
      rw [if_pos hlt]; rfl
    · refine ⟨_, none, ?_, hI, e6, Or.inr ⟨by simp, by simp, hent, by simp [hlt]⟩⟩
      unfold pgBody
      rw [if_neg hc, hr]
      simp only [bind, Except.bind]
      rw [if_neg hlt]; rfl

/-- Every run with floating point storage and an admissible step argument returns, and its result is described by its log. -/
theorem pg_run {P : PGArgs E} (hstore : P.store = id) (hs : PGStepOk P) (hbt : 0 < P.btIter) :
    ∃ res, minimizeProximalGradient P = .ok res ∧ res.x = lastX P res.log ∧
      (∀ pre e suf, res.log = pre ++ e :: suf → e.x = lastX P pre ∧ ((∀ q ∈ pre, q.ok = true) → EntryFacts P e)) ∧
      res.nit ≤ P.maxIter ∧
      (res.why = .callback → P.callback ≠ none ∧ res.log.length = res.nit) ∧
      (res.why ≠ .callback → res.log.length = res.nit + 1 ∧ ∃ pre e, res.log = pre ++ [e] ∧ res.stepSize = some e.step ∧
        res.certificate = some (‖e.x - e.xNext‖ / e.step) ∧ (res.success = true ↔ ‖e.x - e.xNext‖ / e.step < P.tol)) ∧
      (res.success = true ↔ res.why = .success) ∧ (res.why = .exhausted → res.nit = P.maxIter) ∧ res.warned = false := by
  let I : ℕ → PGState E → Prop := fun rem st => PGInv P st ∧ st.nit + rem = P.maxIter ∧ st.log.length = st.nit
  let Q : PGState E → PGWhy → Prop := fun st w => PGInv P st ∧ st.nit ≤ P.maxIter ∧
    (w = .callback → P.callback ≠ none ∧ st.log.length = st.nit) ∧
    (w ≠ .callback → st.log.length = st.nit + 1 ∧ ∃ pre e, st.log = pre ++ [e] ∧ st.stepSize = some e.step ∧
        st.certificate = some (‖e.x - e.xNext‖ / e.step) ∧ (w = .success ↔ ‖e.x - e.xNext‖ / e.step < P.tol)) ∧
    (w = .exhausted → st.nit = P.maxIter)
  have hlt : ∀ c tol : ℝ, certLt (some c) tol ↔ c < tol := fun c tol => by
    unfold certLt
    constructor
    · rintro ⟨r, hr, h⟩
      simp only [Option.some.injEq] at hr
      rw [hr]; exact h
    · exact fun h => ⟨c, rfl, h⟩
  have hI0 : I P.maxIter (pgInit P) := ⟨PGInv.init P, by simp [pgInit], rfl⟩
  have hnext : ∀ rem st st', I (rem + 1) st → pgBody P st = .ok (st', none) → I rem { st' with nit := st'.nit + 1 } := by
    rintro rem st st' ⟨h1, h2, h3⟩ hb
    obtain ⟨st1, w, e, hI, hn, hh⟩ := h1.body hstore hs
    rw [hb] at e
    simp only [Except.ok.injEq, Prod.mk.injEq] at e
    obtain ⟨rfl, rfl⟩ := e
    rcases hh with ⟨h, -⟩ | ⟨-, -, ⟨en, hl, -⟩, -⟩
    · cases h
    · refine ⟨hI.nit _, by simp only; omega, ?_⟩
      simp only [hl, List.length_append, List.length_singleton]; omega
  obtain ⟨⟨st, w⟩, hr⟩ := pgLoop_total (P := P) I (fun rem st h => by
    obtain ⟨st', w, e, -⟩ := h.1.body hstore hs; exact ⟨_, e⟩) hnext P.maxIter _ hI0
  have key : Q st w := pgLoop_induct (P := P) I Q
    (by
      rintro rem st st' w ⟨h1, h2, h3⟩ hb
      obtain ⟨st1, w', e, hI, hn, hh⟩ := h1.body hstore hs
      rw [hb] at e
      simp only [Except.ok.injEq, Prod.mk.injEq] at e
      obtain ⟨rfl, rfl⟩ := e
      rcases hh with ⟨h, hl, hcb⟩ | ⟨hnc, hnx, ⟨en, hl, hx, hx', hst, hce⟩, hiff⟩
      · simp only [Option.some.injEq] at h
        subst h
        exact ⟨hI, by omega, fun _ => ⟨hcb, by rw [hl]; omega⟩, by simp, by simp⟩
      · refine ⟨hI, by omega, fun h => absurd (by rw [h]) hnc, fun _ => ⟨by rw [hl]; simp; omega, st.log, en, hl, hst, hce, ?_⟩,
          fun h => absurd (by rw [h]) hnx⟩
        rw [hce, hlt] at hiff
        rw [← hiff]; simp)
    hnext
    (by
      rintro st st' ⟨h1, h2, h3⟩ hb
      obtain ⟨st1, w', e, hI, hn, hh⟩ := h1.body hstore hs
      rw [hb] at e
      simp only [Except.ok.injEq, Prod.mk.injEq] at e
      obtain ⟨rfl, rfl⟩ := e
      rcases hh with ⟨h, -⟩ | ⟨-, -, ⟨en, hl, hx, hx', hst, hce⟩, hiff⟩
      · cases h
      · refine ⟨hI, by omega, by simp, fun _ => ⟨by rw [hl]; simp; omega, st.log, en, hl, hst, hce, ?_⟩, fun _ => by omega⟩
        rw [hce, hlt] at hiff
        rw [← hiff]; simp) P.maxIter _ hI0 st w hr
  obtain ⟨hI, hn, hq1, hq2, hq3⟩ := key
  refine ⟨{ x := st.x, success := w = .success, certificate := st.certificate, nit := st.nit,
              stepSize := st.stepSize, trace := st.trace, warned := false, why := w, log := st.log, warnLs := st.warnLs },
    ?_, hI.x, hI.entries, hn, hq1, ?_, by simp, hq3, rfl⟩
  · unfold minimizeProximalGradient
    rw [if_neg (by omega), hr]; rfl
  · intro hw
    obtain ⟨h1, pre, e, h2, h3, h4, h5⟩ := hq2 hw
    exact ⟨h1, pre, e, h2, h3, h4, by simpa using h5⟩

end Copt
