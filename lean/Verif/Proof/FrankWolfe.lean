import Mathlib.Tactic.Linarith
import Mathlib.Tactic.Ring
import Mathlib.Tactic.FieldSimp
import Mathlib.Tactic.NormNum
import Mathlib.Tactic.Positivity
import Mathlib.Analysis.Convex.Basic
import Verif.Model.FrankWolfe
import Verif.Spec.Smooth

/-! # Lemmas about the Frank-Wolfe model -/

set_option linter.unusedSectionVars false

namespace Copt

open Spec

open scoped InnerProductSpace

variable {E Rep : Type} [NormedAddCommGroup E] [InnerProductSpace ℝ E]

/-! ### Backtracking -/

theorem btStep_nonneg {cert normD lip maxStep : ℝ} (hc : 0 < cert) (hn : 0 ≤ normD) (hl : 0 ≤ lip) (hm : 0 ≤ maxStep) :
    0 ≤ btStep cert normD lip maxStep := by
  unfold btStep; split
  · exact div_nonneg hc.le (mul_nonneg hn hl)
  · exact hm

theorem btStep_le {cert normD lip maxStep : ℝ} : btStep cert normD lip maxStep ≤ maxStep := by
  unfold btStep; split
  · rename_i h; exact h.2.le
  · exact le_refl _

theorem btRhs_le {cert normD lip maxStep : ℝ} (hc : 0 < cert) (hn : 0 ≤ normD) (hl : 0 ≤ lip) (hm : 0 ≤ maxStep) :
    btRhs cert normD lip maxStep ≤ -(btStep cert normD lip maxStep * cert / 2) := by
  unfold btRhs btStep
  split
  · apply le_of_eq; ring
  · rename_i h
    have h1 : maxStep * (normD * lip) ≤ cert := by
      by_cases h0 : normD * lip = 0
      · rw [h0, mul_zero]; exact hc.le
      · have hp : 0 < normD * lip := lt_of_le_of_ne (mul_nonneg hn hl) (Ne.symm h0)
        have : ¬ cert / (normD * lip) < maxStep := fun hh => h ⟨h0, hh⟩
        rw [not_lt, le_div_iff₀ hp] at this
        exact this
    nlinarith [mul_le_mul_of_nonneg_left h1 hm]

theorem btRhs_eq {cert normD lip maxStep : ℝ} :
    btRhs cert normD lip maxStep = -(btStep cert normD lip maxStep * cert) +
      1 / 2 * btStep cert normD lip maxStep ^ 2 * lip * normD := by
  unfold btRhs btStep
  split
  · rename_i h
    have := h.1
    field_simp
    ring
  · ring

theorem btLoop_unfold (fg : E → ℝ × E) (x d : E) (fT cert normD maxStep : ℝ) (k : ℕ) (lip : ℝ) :
    btLoop fg x d fT cert normD maxStep k lip =
      (let step := btStep cert normD lip maxStep
      let next := fg (x + step • d)
      if next.1 - fT ≤ btRhs cert normD lip maxStep + fwEPS then ⟨step, lip, next.1, next.2, false⟩
      else
        match k with
        | 0 => ⟨step, lip * 2, next.1, next.2, true⟩
        | k + 1 => btLoop fg x d fT cert normD maxStep k (lip * 2)) := by
  cases k <;> simp only [btLoop]

theorem btLoop_spec (fg : E → ℝ × E) (x d : E) (fT : ℝ) {cert normD maxStep : ℝ} (hc : 0 < cert) (hn : 0 ≤ normD)
    (hm : 0 ≤ maxStep) (k : ℕ) : ∀ lip, 0 ≤ lip →
    let r := btLoop fg x d fT cert normD maxStep k lip
    0 ≤ r.step ∧ r.step ≤ maxStep ∧ lip ≤ r.lip ∧ (r.fNext, r.gradNext) = fg (x + r.step • d) ∧
      (r.warned = false → r.fNext ≤ fT - r.step * cert / 2 + fwEPS) := by
  induction k with
  | zero =>
    intro lip hl
    rw [btLoop_unfold]
    simp only
    split
    · rename_i h
      refine ⟨btStep_nonneg hc hn hl hm, btStep_le, le_refl _, rfl, fun _ => ?_⟩
      have := btRhs_le hc hn hl hm
      simp only
      linarith
    · exact ⟨btStep_nonneg hc hn hl hm, btStep_le, by simp only; linarith, rfl, by simp⟩
  | succ k ih =>
    intro lip hl
    rw [btLoop_unfold]
    simp only
    split
    · rename_i h
      refine ⟨btStep_nonneg hc hn hl hm, btStep_le, le_refl _, rfl, fun _ => ?_⟩
      have := btRhs_le hc hn hl hm
      simp only
      linarith
    · obtain ⟨h1, h2, h3, h4, h5⟩ := ih (lip * 2) (by linarith)
      exact ⟨h1, h2, by linarith, h4, h5⟩

theorem btLoop_smooth (fg : E → ℝ × E) (x d : E) (fT : ℝ) {cert normD maxStep L : ℝ} (hc : 0 < cert) (hn : 0 ≤ normD)
    (hm : 0 ≤ maxStep)
    (hq : ∀ s, 0 ≤ s → s ≤ maxStep → (fg (x + s • d)).1 ≤ fT - s * cert + L / 2 * s ^ 2 * normD) (k : ℕ) :
    ∀ lip, 0 ≤ lip → L ≤ 2 ^ k * lip →
    let r := btLoop fg x d fT cert normD maxStep k lip
    r.warned = false ∧ r.lip ≤ max lip (2 * L) := by
  have hpass : ∀ lip, 0 ≤ lip → L ≤ lip → (fg (x + btStep cert normD lip maxStep • d)).1 - fT ≤
      btRhs cert normD lip maxStep + fwEPS := by
    intro lip hl hL
    have h1 := hq _ (btStep_nonneg hc hn hl hm) btStep_le
    rw [btRhs_eq]
    have h2 : L / 2 * btStep cert normD lip maxStep ^ 2 * normD ≤ 1 / 2 * btStep cert normD lip maxStep ^ 2 * lip * normD := by
      have := mul_nonneg (sq_nonneg (btStep cert normD lip maxStep)) hn
      nlinarith
    have h3 : 0 ≤ fwEPS := by unfold fwEPS; positivity
    linarith
  induction k with
  | zero =>
    intro lip hl hL
    rw [btLoop_unfold]
    simp only
    rw [if_pos (hpass lip hl (by simpa using hL))]
    exact ⟨rfl, le_max_left _ _⟩
  | succ k ih =>
    intro lip hl hL
    rw [btLoop_unfold]
    simp only
    split
    · exact ⟨rfl, le_max_left _ _⟩
    · rename_i h
      have hlt : lip < L := by
        by_contra hc'
        exact h (hpass lip hl (not_lt.mp hc'))
      obtain ⟨h1, h2⟩ := ih (lip * 2) (by linarith) (by rw [pow_succ] at hL; linarith)
      refine ⟨h1, le_trans h2 (max_le ?_ (le_max_right _ _))⟩
      exact le_max_of_le_right (by linarith)

theorem btInit_bounds {lip : ℝ} (hl : 0 ≤ lip) (oldF : Option ℝ) (fT cert normD : ℝ) :
    9 / 10 * lip ≤ btInit oldF fT cert normD lip ∧ btInit oldF fT cert normD lip ≤ lip := by
  unfold btInit
  cases oldF with
  | none => exact ⟨by linarith, le_refl _⟩
  | some o =>
    simp only
    refine ⟨le_trans (by linarith) (le_max_right _ _), max_le ?_ (by linarith)⟩
    split
    · exact le_refl _
    · exact min_le_right _ _

/-! ### The loop -/

section Loop
variable [DecidableEq Rep]

/-- Inversion of an iteration that continues. -/
theorem fwBody_none {P : FWArgs E Rep} {it : ℕ} {st st' : FWState E Rep} (h : fwBody P it st = .ok (st', none)) :
    ∃ o s, P.lmo it (-st.grad) st.x st.active = .ok o ∧ P.tol < ⟪o.dir, -st.grad⟫_ℝ ∧
      fwStepSize P (fwLocals P it st o) st.oldF = .ok s ∧
      (fwCallback P it { fwLocals P it st o with lip := s.lip, stepSize := some s.step } st.cbs).2 = false ∧
      fwMove st (fwLocals P it st o) o s
        (fwCallback P it { fwLocals P it st o with lip := s.lip, stepSize := some s.step } st.cbs).1 = .ok st' := by
  unfold fwBody at h
  cases ho : P.lmo it (-st.grad) st.x st.active with
  | error e => rw [ho] at h; simp [bind, Except.bind] at h
  | ok o =>
    rw [ho] at h
    simp only [bind, Except.bind, pure, Except.pure] at h
    split at h
    · simp at h
    · rename_i hc
      cases hs : fwStepSize P (fwLocals P it st o) st.oldF with
      | error e => rw [hs] at h; simp at h
      | ok s =>
        rw [hs] at h
        simp only at h
        split at h
        · simp at h
        · rename_i hcb
          cases hm : fwMove st (fwLocals P it st o) o s
              (fwCallback P it { fwLocals P it st o with lip := s.lip, stepSize := some s.step } st.cbs).1 with
          | error e => rw [hm] at h; simp at h
          | ok st'' =>
            rw [hm] at h
            simp only [Except.ok.injEq, Prod.mk.injEq, and_true] at h
            subst h
            exact ⟨o, s, rfl, not_le.mp hc, hs, by simpa using hcb, hm⟩

/-- Inversion of an iteration that stops. -/
theorem fwBody_some {P : FWArgs E Rep} {it : ℕ} {st st' : FWState E Rep} {w : FWWhy}
    (h : fwBody P it st = .ok (st', some w)) :
    ∃ o, P.lmo it (-st.grad) st.x st.active = .ok o ∧
      ((w = .converged ∧ ⟪o.dir, -st.grad⟫_ℝ ≤ P.tol ∧
          st' = { st with lip := some (fwLip P st o.dir), last := some (fwLocals P it st o) }) ∨
       (w = .callback ∧ P.tol < ⟪o.dir, -st.grad⟫_ℝ ∧ ∃ s cb, fwStepSize P (fwLocals P it st o) st.oldF = .ok s ∧
          P.callback = some cb ∧ cb it { fwLocals P it st o with lip := s.lip, stepSize := some s.step } = true ∧
          st' = { st with lip := some s.lip, stepSize := some s.step,
                          last := some { fwLocals P it st o with lip := s.lip, stepSize := some s.step },
                          cbs := st.cbs ++ [{ fwLocals P it st o with lip := s.lip, stepSize := some s.step }] })) := by
  unfold fwBody at h
  cases ho : P.lmo it (-st.grad) st.x st.active with
  | error e => rw [ho] at h; simp [bind, Except.bind] at h
  | ok o =>
    rw [ho] at h
    refine ⟨o, rfl, ?_⟩
    simp only [bind, Except.bind, pure, Except.pure] at h
    split at h
    · rename_i hc
      simp only [Except.ok.injEq, Prod.mk.injEq, Option.some.injEq] at h
      exact Or.inl ⟨h.2.symm, hc, h.1.symm⟩
    · rename_i hc
      cases hs : fwStepSize P (fwLocals P it st o) st.oldF with
      | error e => rw [hs] at h; simp at h
      | ok s =>
        rw [hs] at h
        simp only at h
        split at h
        · rename_i hcb
          simp only [Except.ok.injEq, Prod.mk.injEq, Option.some.injEq] at h
          cases hP : P.callback with
          | none => rw [fwCallback, hP] at hcb; simp at hcb
          | some cb =>
            simp only [fwCallback, hP] at hcb h
            exact Or.inr ⟨h.2.symm, not_le.mp hc, s, cb, rfl, rfl, hcb, h.1.symm⟩
        · cases hm : fwMove st (fwLocals P it st o) o s
              (fwCallback P it { fwLocals P it st o with lip := s.lip, stepSize := some s.step } st.cbs).1 with
          | error e => rw [hm] at h; simp at h
          | ok st'' => rw [hm] at h; simp at h

/-- Effect of a move, for a run without active set. -/
theorem fwMove_ok {st st' : FWState E Rep} {l : FWLocals E Rep} {o : LmoOut E Rep ℝ} {s : FWStepOut E}
    {cbs : List (FWLocals E Rep)} (h : fwMove st l o s cbs = .ok st') :
    ∃ act, fwUpdateActive st.active o s.step = .ok act ∧
      st' = { x := st.x + s.step • o.dir, fT := s.fNext, grad := s.gradNext, oldF := some st.fT, lip := some s.lip,
              stepSize := some s.step, active := act, last := some { l with lip := s.lip, stepSize := some s.step },
              cbs := cbs, iters := st.iters ++ [st.x] } := by
  unfold fwMove at h
  cases ha : fwUpdateActive st.active o s.step with
  | error e => rw [ha] at h; simp [bind, Except.bind] at h
  | ok act =>
    rw [ha] at h
    simp only [bind, Except.bind, pure, Except.pure, Except.ok.injEq] at h
    exact ⟨act, rfl, h.symm⟩

/-- Partial correctness: an invariant at the top of the iterations, and what a stopping iteration establishes. -/
theorem fwLoop_induct {P : FWArgs E Rep} (I : ℕ → FWState E Rep → Prop) (Q : ℕ → FWState E Rep → FWWhy → Prop)
    (hstep : ∀ it st st', I it st → fwBody P it st = .ok (st', none) → I (it + 1) st')
    (hstop : ∀ it st st' w, I it st → fwBody P it st = .ok (st', some w) → Q it st' w) :
    ∀ fuel it st, I it st → ∀ st' w, fwLoop P fuel it st = .ok (st', w) →
      (∃ it', it ≤ it' ∧ it' < it + fuel ∧ Q it' st' w) ∨ (w = .exhausted ∧ I (it + fuel) st') := by
  intro fuel
  induction fuel with
  | zero =>
    intro it st hI st' w h
    simp only [fwLoop, Except.ok.injEq, Prod.mk.injEq] at h
    obtain ⟨rfl, rfl⟩ := h
    exact Or.inr ⟨rfl, hI⟩
  | succ fuel ih =>
    intro it st hI st' w h
    rw [fwLoop] at h
    cases hb : fwBody P it st with
    | error e => rw [hb] at h; simp [bind, Except.bind] at h
    | ok r =>
      obtain ⟨st1, w1⟩ := r
      rw [hb] at h
      cases w1 with
      | some w1 =>
        simp only [bind, Except.bind, pure, Except.pure, Except.ok.injEq, Prod.mk.injEq] at h
        obtain ⟨rfl, rfl⟩ := h
        exact Or.inl ⟨it, le_refl _, by omega, hstop _ _ _ _ hI hb⟩
      | none =>
        simp only [bind, Except.bind] at h
        rcases ih (it + 1) st1 (hstep _ _ _ hI hb) st' w h with ⟨it', h1, h2, h3⟩ | ⟨h1, h2⟩
        · exact Or.inl ⟨it', by omega, by omega, h3⟩
        · exact Or.inr ⟨h1, by rw [show it + (fuel + 1) = it + 1 + fuel by omega]; exact h2⟩

/-- Total correctness: if every iteration from a good state succeeds, the loop returns. -/
theorem fwLoop_total {P : FWArgs E Rep} (I : ℕ → FWState E Rep → Prop)
    (hok : ∀ it st, I it st → ∃ r, fwBody P it st = .ok r)
    (hstep : ∀ it st st', I it st → fwBody P it st = .ok (st', none) → I (it + 1) st') :
    ∀ fuel it st, I it st → ∃ r, fwLoop P fuel it st = .ok r := by
  intro fuel
  induction fuel with
  | zero => intro it st _; exact ⟨_, rfl⟩
  | succ fuel ih =>
    intro it st hI
    obtain ⟨⟨st1, w1⟩, hb⟩ := hok it st hI
    rw [fwLoop, hb]
    cases w1 with
    | some w1 => exact ⟨_, rfl⟩
    | none => exact ih (it + 1) st1 (hstep _ _ _ hI hb)

/-- Inversion of a run that returns. -/
theorem minimizeFW_ok {P : FWArgs E Rep} {res : FWResult E Rep} (h : minimizeFrankWolfe P = .ok res) :
    ¬ P.tol < 0 ∧ ∃ act st w, fwActive0 P = .ok act ∧ fwLoop P P.maxIter 0 (fwInit P act) = .ok (st, w) ∧
      fwFinish P (st, w) = .ok res := by
  unfold minimizeFrankWolfe at h
  split at h
  · cases h
  · rename_i ht
    refine ⟨ht, ?_⟩
    cases ha : fwActive0 P with
    | error e => rw [ha] at h; simp [bind, Except.bind] at h
    | ok act =>
      rw [ha] at h
      cases hl : fwLoop P P.maxIter 0 (fwInit P act) with
      | error e => simp only [bind, Except.bind, hl] at h; cases h
      | ok r =>
        simp only [bind, Except.bind, hl] at h
        exact ⟨act, r.1, r.2, rfl, by rw [hl], h⟩

theorem fwFinish_ok {P : FWArgs E Rep} {st : FWState E Rep} {w : FWWhy} {res : FWResult E Rep}
    (h : fwFinish P (st, w) = .ok res) :
    ∃ l, st.last = some l ∧ res.x = st.x ∧ res.nit = l.it ∧ res.certificate = l.certificate ∧ res.active = st.active ∧
      res.why = w ∧ res.iters = st.iters ++ [st.x] ∧
      res.cbs = (match P.callback with
        | none => st.cbs
        | some _ => st.cbs ++ [{ l with x := st.x, fT := st.fT, grad := st.grad, active := st.active }]) := by
  unfold fwFinish at h
  simp only at h
  cases hl : st.last with
  | none => rw [hl] at h; cases h
  | some l =>
    rw [hl] at h
    simp only [Except.ok.injEq] at h
    subst h
    exact ⟨l, rfl, rfl, rfl, rfl, rfl, rfl, rfl, rfl⟩

/-- The step-size branches, inverted. -/
theorem fwStepSize_eval {P : FWArgs E Rep} {l : FWLocals E Rep} {oldF : Option ℝ} {s : FWStepOut E}
    (h : fwStepSize P l oldF = .ok s) (hc : 0 < l.certificate) (hl : 0 ≤ l.lip) (hm : 0 ≤ l.maxStep) :
    (s.fNext, s.gradNext) = P.fg (l.x + s.step • l.dir) ∧ 0 ≤ l.lip ∧ 0 ≤ s.lip := by
  unfold fwStepSize at h
  simp only at h
  split at h
  · simp only [Except.ok.injEq] at h; subst h; exact ⟨rfl, hl, hl⟩
  · split at h
    · simp only [Except.ok.injEq] at h
      subst h
      have h0 := btInit_bounds hl oldF l.fT l.certificate (‖l.dir‖ ^ 2)
      have := btLoop_spec P.fg l.x l.dir l.fT hc (sq_nonneg ‖l.dir‖) hm 99
        (btInit oldF l.fT l.certificate (‖l.dir‖ ^ 2) l.lip) (by linarith)
      exact ⟨this.2.2.2.1, hl, by have := this.2.2.1; unfold backtrackingStepSize; linarith⟩
    · split at h
      · split at h
        · cases h
        · simp only [Except.ok.injEq] at h; subst h; exact ⟨rfl, hl, hl⟩
      · split at h
        · simp only [Except.ok.injEq] at h; subst h; exact ⟨rfl, hl, hl⟩
        · cases h

/-- `f_next, grad_next` are always the evaluation at the next iterate (no sign assumptions). -/
theorem btLoop_eval (fg : E → ℝ × E) (x d : E) (fT cert normD maxStep : ℝ) (k : ℕ) : ∀ lip,
    let r := btLoop fg x d fT cert normD maxStep k lip
    (r.fNext, r.gradNext) = fg (x + r.step • d) := by
  induction k with
  | zero =>
    intro lip
    rw [btLoop_unfold]
    simp only
    split <;> rfl
  | succ k ih =>
    intro lip
    rw [btLoop_unfold]
    simp only
    split
    · rfl
    · exact ih (lip * 2)

theorem fwStepSize_fg {P : FWArgs E Rep} {l : FWLocals E Rep} {oldF : Option ℝ} {s : FWStepOut E}
    (h : fwStepSize P l oldF = .ok s) : (s.fNext, s.gradNext) = P.fg (l.x + s.step • l.dir) := by
  unfold fwStepSize at h
  simp only at h
  split at h
  · simp only [Except.ok.injEq] at h; subst h; rfl
  · split at h
    · simp only [Except.ok.injEq] at h
      subst h
      exact btLoop_eval _ _ _ _ _ _ _ _ _
    · split at h
      · split at h
        · cases h
        · simp only [Except.ok.injEq] at h; subst h; rfl
      · split at h
        · simp only [Except.ok.injEq] at h; subst h; rfl
        · cases h

/-- Backtracking and DR steps are in `[0, max_step]`. -/
theorem fwStepSize_le_max {P : FWArgs E Rep} {l : FWLocals E Rep} {oldF : Option ℝ} {s : FWStepOut E}
    (hstep : P.step = .str "backtracking" ∨ P.step = .str "DR")
    (h : fwStepSize P l oldF = .ok s) (hc : 0 < l.certificate) (hl : 0 ≤ l.lip) (hm : 0 ≤ l.maxStep) :
    0 ≤ s.step ∧ s.step ≤ l.maxStep := by
  unfold fwStepSize at h
  rcases hstep with hs | hs
  · rw [hs] at h
    simp only [if_true, Except.ok.injEq] at h
    subst h
    have h0 := btInit_bounds hl oldF l.fT l.certificate (‖l.dir‖ ^ 2)
    have := btLoop_spec P.fg l.x l.dir l.fT hc (sq_nonneg ‖l.dir‖) hm 99
      (btInit oldF l.fT l.certificate (‖l.dir‖ ^ 2) l.lip) (by linarith)
    exact ⟨this.1, this.2.1⟩
  · rw [hs] at h
    simp only [show ("DR" = "backtracking") = False by decide, if_false, if_true] at h
    split at h
    · cases h
    · simp only [Except.ok.injEq] at h
      subst h
      exact ⟨btStep_nonneg hc (sq_nonneg _) hl hm, btStep_le⟩

theorem fwLip_nonneg {P : FWArgs E Rep} {st : FWState E Rep} (hl : ∀ L, st.lip = some L → 0 ≤ L) (d : E) :
    0 ≤ fwLip P st d := by
  unfold fwLip
  cases h : st.lip with
  | some L => exact hl L h
  | none => positivity

end Loop

end Copt

namespace Copt

open Spec

open scoped InnerProductSpace

variable {E Rep : Type} [NormedAddCommGroup E] [InnerProductSpace ℝ E] [DecidableEq Rep]

/-- What every iteration preserves in a vanilla run with non-negative Lipschitz estimates. -/
structure FWBase (P : FWArgs E Rep) (it : ℕ) (st : FWState E Rep) : Prop where
  act : st.active = none
  fg : (st.fT, st.grad) = P.fg st.x
  lip : ∀ L, st.lip = some L → 0 ≤ L
  len : st.iters.length = it

theorem fwBase_init {P : FWArgs E Rep} (hlip : ∀ L, P.lipschitz = some L → 0 ≤ L) : FWBase P 0 (fwInit P none) :=
  ⟨rfl, rfl, hlip, rfl⟩

/-- A continuing iteration of a vanilla run. -/
theorem fw_step {P : FWArgs E Rep} {it : ℕ} {st st' : FWState E Rep} (htol : 0 ≤ P.tol) (hB : FWBase P it st)
    (hmax : ∀ it u x o, P.lmo it u x none = .ok o → 0 ≤ o.maxStep) (h : fwBody P it st = .ok (st', none)) :
    ∃ o s, P.lmo it (-(P.fg st.x).2) st.x none = .ok o ∧ P.tol < ⟪o.dir, -(P.fg st.x).2⟫_ℝ ∧
      fwStepSize P (fwLocals P it st o) st.oldF = .ok s ∧ 0 ≤ fwLip P st o.dir ∧
      st'.x = st.x + s.step • o.dir ∧ st'.iters = st.iters ++ [st.x] ∧ st'.active = none ∧
      st'.last = some { fwLocals P it st o with lip := s.lip, stepSize := some s.step } ∧
      st'.cbs = (match P.callback with
        | none => st.cbs
        | some _ => st.cbs ++ [{ fwLocals P it st o with lip := s.lip, stepSize := some s.step }]) ∧
      FWBase P (it + 1) st' := by
  obtain ⟨o, s, ho, hc, hs, hcb, hm⟩ := fwBody_none h
  obtain ⟨act, ha, rfl⟩ := fwMove_ok hm
  have hg : st.grad = (P.fg st.x).2 := by rw [← hB.fg]
  rw [hB.act] at ho ha
  rw [hg] at ho hc
  have hact : act = none := by
    simp only [fwUpdateActive, Except.ok.injEq] at ha
    exact ha.symm
  have hl := fwLip_nonneg (P := P) hB.lip o.dir
  have hc' : 0 < (fwLocals P it st o).certificate := by
    show 0 < ⟪o.dir, -st.grad⟫_ℝ
    rw [hg]; linarith
  have hev := fwStepSize_eval hs hc' hl (hmax _ _ _ _ ho)
  refine ⟨o, s, ho, hc, hs, hl, rfl, rfl, hact, rfl, ?_, ⟨hact, hev.1, ?_, ?_⟩⟩
  · unfold fwCallback
    cases P.callback <;> rfl
  · intro L hL
    simp only [Option.some.injEq] at hL
    rw [← hL]; exact hev.2.2
  · simp [hB.len]

/-- A stopping iteration of a vanilla run. -/
theorem fw_stop {P : FWArgs E Rep} {it : ℕ} {st st' : FWState E Rep} {w : FWWhy} (hB : FWBase P it st)
    (h : fwBody P it st = .ok (st', some w)) :
    ∃ o l, P.lmo it (-(P.fg st.x).2) st.x none = .ok o ∧ st'.x = st.x ∧ st'.iters = st.iters ∧
      st'.last = some l ∧ l.it = it ∧ l.x = st.x ∧ l.dir = o.dir ∧ l.certificate = ⟪o.dir, -(P.fg st.x).2⟫_ℝ ∧
      st'.fT = st.fT ∧ st'.grad = st.grad ∧ st'.active = st.active ∧
      ((w = .converged ∧ l.certificate ≤ P.tol ∧ st'.cbs = st.cbs) ∨
        (w = .callback ∧ P.tol < l.certificate ∧ st'.cbs = st.cbs ++ [l] ∧ ∃ cb, P.callback = some cb ∧ cb it l = true)) := by
  obtain ⟨o, ho, hor⟩ := fwBody_some h
  have hg : st.grad = (P.fg st.x).2 := by rw [← hB.fg]
  have ho' := ho
  rw [hB.act, hg] at ho'
  rcases hor with ⟨hw, hc, rfl⟩ | ⟨hw, hc, s, cb, hs, hP, hcb, rfl⟩
  · refine ⟨o, fwLocals P it st o, ho', rfl, rfl, rfl, rfl, rfl, rfl, ?_, rfl, rfl, rfl, Or.inl ⟨hw, hc, rfl⟩⟩
    show ⟪o.dir, -st.grad⟫_ℝ = _
    rw [hg]
  · refine ⟨o, _, ho', rfl, rfl, rfl, rfl, rfl, rfl, ?_, rfl, rfl, rfl, Or.inr ⟨hw, hc, rfl, cb, hP, hcb⟩⟩
    show ⟪o.dir, -st.grad⟫_ℝ = _
    rw [hg]

/-- The number of callback calls at the top of iteration `it`. -/
def cbCount (P : FWArgs E Rep) (it : ℕ) (st : FWState E Rep) : Prop := P.callback ≠ none → st.cbs.length = it

theorem fwActive0_vanilla {P : FWArgs E Rep} (hv : P.variant = "vanilla") : fwActive0 P = .ok none := by
  simp [fwActive0, hv]

theorem vanilla_act {P : FWArgs E Rep} (hv : P.variant = "vanilla") {act : Option (ActiveSet Rep ℝ)}
    (h : fwActive0 P = .ok act) : act = none := by
  rw [fwActive0_vanilla hv] at h
  simp only [Except.ok.injEq] at h
  exact h.symm

/-- DR steps: the quadratic upper bound gives the best decrease over all `γ ≤ 1`. -/
theorem dr_decrease {f : E → ℝ} {g : E → E} {x d : E} {L cert γ : ℝ} (hL : 0 < L) (hc : cert = ⟪d, -g x⟫_ℝ) (hpos : 0 < cert)
    (hq : f (x + btStep cert (‖d‖ ^ 2) L 1 • d) ≤ f x + ⟪g x, btStep cert (‖d‖ ^ 2) L 1 • d⟫_ℝ +
      L / 2 * ‖btStep cert (‖d‖ ^ 2) L 1 • d‖ ^ 2) (h1 : γ ≤ 1) :
    f (x + btStep cert (‖d‖ ^ 2) L 1 • d) ≤ f x - γ * cert + L / 2 * γ ^ 2 * ‖d‖ ^ 2 := by
  have hd : d ≠ 0 := by
    rintro rfl
    rw [inner_zero_left] at hc; linarith
  have hn : 0 < ‖d‖ ^ 2 := by
    have := norm_pos_iff.mpr hd
    positivity
  have hin : ⟪g x, d⟫_ℝ = -cert := by rw [hc, inner_neg_right, real_inner_comm]; ring
  rw [inner_smul_right, hin, norm_smul, mul_pow, Real.norm_eq_abs, sq_abs] at hq
  set s := btStep cert (‖d‖ ^ 2) L 1 with hs
  set N := ‖d‖ ^ 2
  have hnl : 0 < N * L := mul_pos hn hL
  -- the quadratic is minimised over γ ≤ 1 at s
  have key : -(s * cert) + L / 2 * s ^ 2 * N ≤ -(γ * cert) + L / 2 * γ ^ 2 * N := by
    unfold btStep at hs
    split at hs
    · have e : s * (N * L) = cert := by rw [hs]; field_simp
      have : cert = s * (N * L) := e.symm
      rw [this]
      nlinarith [mul_nonneg hnl.le (sq_nonneg (γ - s))]
    · rename_i h
      have hge : 1 * (N * L) ≤ cert := by
        have : ¬ cert / (N * L) < 1 := fun hh => h ⟨hnl.ne', hh⟩
        rw [not_lt, le_div_iff₀ hnl] at this
        exact this
      rw [hs]
      have h3 : 0 ≤ (1 - γ) * (cert - N * L) := mul_nonneg (by linarith) (by linarith)
      have h4 : 0 ≤ N * L * (1 - γ) ^ 2 := by positivity
      nlinarith
  linarith

/-- The recursion behind the Frank-Wolfe rates. -/
theorem fw_rate_step {h h' B : ℝ} (t : ℕ) (hB : 0 ≤ B) (hprev : 1 ≤ t → h ≤ 2 * B / ((t : ℝ) + 2))
    (hrec : h' ≤ (1 - 2 / ((t : ℝ) + 2)) * h + (2 / ((t : ℝ) + 2)) ^ 2 * B / 2) :
    h' ≤ 2 * B / (((t + 1 : ℕ) : ℝ) + 2) := by
  have ht : (0 : ℝ) ≤ t := Nat.cast_nonneg t
  push_cast
  have h2 : (0 : ℝ) < (t : ℝ) + 2 := by linarith
  have h3 : (0 : ℝ) < (t : ℝ) + 1 + 2 := by linarith
  rcases Nat.eq_zero_or_pos t with h0 | h0
  · subst h0
    simp only [Nat.cast_zero, zero_add] at hrec ⊢
    norm_num at hrec ⊢
    linarith
  · have hp := hprev h0
    have e1 : (0 : ℝ) ≤ 1 - 2 / ((t : ℝ) + 2) := by
      rw [sub_nonneg, div_le_one h2]; linarith
    have h4 := mul_le_mul_of_nonneg_left hp e1
    have h5 : (1 - 2 / ((t : ℝ) + 2)) * (2 * B / ((t : ℝ) + 2)) + (2 / ((t : ℝ) + 2)) ^ 2 * B / 2 =
        2 * B * ((t : ℝ) + 1) / ((t : ℝ) + 2) ^ 2 := by
      field_simp; ring
    have h6 : 2 * B * ((t : ℝ) + 1) / ((t : ℝ) + 2) ^ 2 ≤ 2 * B / ((t : ℝ) + 1 + 2) := by
      rw [div_le_div_iff₀ (by positivity) h3]
      have : ((t : ℝ) + 1) * ((t : ℝ) + 1 + 2) ≤ ((t : ℝ) + 2) ^ 2 := by nlinarith
      have := mul_le_mul_of_nonneg_left this (by linarith : (0:ℝ) ≤ 2 * B)
      linarith
    linarith

end Copt
