import Mathlib.Tactic.Linarith
import Mathlib.Tactic.Module
import Verif.Model.Splitting
import Verif.Proof.Convex
import Verif.Proof.ProxGrad

/-! # Lemmas on three operator splitting -/

set_option linter.unusedSectionVars false

namespace Copt

open Spec

open scoped InnerProductSpace

variable {E : Type} [NormedAddCommGroup E] [InnerProductSpace ℝ E]

theorem tsSearch_spec {fg : E → ℝ × E} {prox1 : E → ℝ → E} {z u grad : E} {fk factor : ℝ} (hf : 0 < factor) :
    ∀ k step, 0 < step → let r := tsSearch fg prox1 z u grad fk factor k step
      0 < r.used ∧ r.x = prox1 (z - r.used • (u + grad)) r.used ∧ (r.step = r.used ∨ r.step = r.used * factor) ∧
      (r.ok = true → r.step = r.used ∧ r.lsTol ≤ lsEps) ∧ (r.ok = false → r.step = r.used * factor) ∧
      r.lsTol = (fg r.x).1 - (fk + ⟪grad, r.x - z⟫_ℝ + ‖r.x - z‖ ^ 2 / (2 * r.used)) ∧ (factor ≤ 1 → r.used ≤ step) := by
  intro k
  induction k with
  | zero =>
    intro step hs
    rw [tsSearch]
    simp only
    split
    · rename_i h
      exact ⟨hs, rfl, Or.inl rfl, fun _ => ⟨rfl, h⟩, by simp, rfl, fun _ => le_refl _⟩
    · exact ⟨hs, rfl, Or.inr rfl, by simp, fun _ => rfl, rfl, fun _ => le_refl _⟩
  | succ k ih =>
    intro step hs
    rw [tsSearch]
    simp only
    split
    · rename_i h
      exact ⟨hs, rfl, Or.inl rfl, fun _ => ⟨rfl, h⟩, by simp, rfl, fun _ => le_refl _⟩
    · obtain ⟨a, b, c, d, e, f, g⟩ := ih (step * factor) (by positivity)
      exact ⟨a, b, c, d, e, f, fun h => (g h).trans (by nlinarith)⟩

theorem tsSearch_zero {fg : E → ℝ × E} {prox1 : E → ℝ → E} {z u grad : E} {fk factor : ℝ} :
    ∀ k, (tsSearch fg prox1 z u grad fk factor k 0).step = 0 := by
  intro k
  induction k with
  | zero => rw [tsSearch]; split <;> simp
  | succ k ih =>
    rw [tsSearch]; split
    · rfl
    · rw [zero_mul]; exact ih

/-- Everything about the point computed by one iteration with a positive step. -/
theorem tsStep_spec {P : TSArgs E} (hf : 0 < P.factor) (z u : E) {step : ℝ} (hs : 0 < step) :
    let r := (tsStep P z u step).1
    0 < r.used ∧ 0 < r.step ∧ r.x = P.p1 (z - r.used • (u + (P.fg z).2)) r.used ∧ (P.factor ≤ 1 → r.step ≤ r.used ∧ r.used ≤ step) ∧
      (r.ok = true → r.step = r.used) ∧ (r.ok = false → r.step = r.used * P.factor) ∧
      (P.search = false → r.used = step ∧ r.step = step) ∧
      ((tsStep P z u step).2 = true → r.lsTol = (P.fg r.x).1 - ((P.fg z).1 + ⟪(P.fg z).2, r.x - z⟫_ℝ + ‖r.x - z‖ ^ 2 / (2 * r.used)) ∧
        (r.ok = true → r.lsTol ≤ lsEps)) := by
  unfold tsStep
  simp only
  by_cases hl : (decide (1 / 10 ^ 7 < ‖P.p1 (z - step • (u + (P.fg z).2)) step - z‖) && P.search) = true
  · rw [if_pos hl]
    obtain ⟨a, b, c, d, e, f, g⟩ := tsSearch_spec (fg := P.fg) (prox1 := P.p1) (z := z) (u := u) (grad := (P.fg z).2)
      (fk := (P.fg z).1) hf (P.btIter.toNat - 1) step hs
    refine ⟨a, ?_, b, fun h => ⟨?_, g h⟩, fun h => (d h).1, e, fun h => ?_, fun _ => ⟨f, fun h => (d h).2⟩⟩
    · rcases c with c | c <;> rw [c]
      · exact a
      · positivity
    · rcases c with c | c <;> rw [c]
      nlinarith
    · rw [h, Bool.and_false] at hl; cases hl
  · rw [if_neg hl]
    exact ⟨hs, hs, rfl, fun _ => ⟨le_refl _, le_refl _⟩, fun _ => rfl, by simp, fun _ => ⟨rfl, rfl⟩, fun h => absurd h hl⟩

theorem tsStep_zero {P : TSArgs E} (z u : E) : (tsStep P z u 0).1.step = 0 := by
  unfold tsStep
  simp only
  split
  · exact tsSearch_zero _
  · rfl

theorem tsGrow_nonneg {ls : Bool} {h : Option ℝ} {step lsTol s : ℝ} (hs : 0 < step) (he : tsGrow ls h step lsTol = some s) : 0 ≤ s := by
  unfold tsGrow at he
  split at he
  · split at he
    · cases he; positivity
    · simp only at he
      split at he
      · cases he
      · cases he
        exact le_min (Real.sqrt_nonneg _) (by positivity)
  · cases he; exact hs.le

theorem tsGrow_none {ls : Bool} {step lsTol : ℝ} : tsGrow ls none step lsTol = some step := by
  unfold tsGrow; split <;> simp_all

theorem tsGrow_nols {h : Option ℝ} {step lsTol : ℝ} : tsGrow false h step lsTol = some step := by
  unfold tsGrow; split <;> simp_all

/-- One iteration, when nothing has overflowed. -/
theorem tsNext_eq {P : TSArgs E} {st : TSState E} {step : ℝ} (hn : st.nan = false) (hs : st.step = some step)
    (hr : (tsStep P st.z st.u step).1.step ≠ 0) :
    let r := (tsStep P st.z st.u step).1
    let z := P.p2 (r.x + r.step • st.u) r.step
    tsNext P st = { x := r.x, z := z, u := st.u + (r.step)⁻¹ • (r.x - z),
                    step := tsGrow (tsStep P st.z st.u step).2 P.hLip r.step r.lsTol,
                    certificate := some (‖r.x - st.z‖ / r.step), nan := false,
                    log := st.log ++ [⟨st.z, st.u, r.x, r.used, r.step, (tsStep P st.z st.u step).2, r.ok⟩] } := by
  unfold tsNext
  rw [hn, hs]
  simp only [if_neg hr]

theorem tsNext_nan {P : TSArgs E} {st : TSState E}
    (h : st.nan = true ∨ st.step = none ∨ ∃ s, st.step = some s ∧ (tsStep P st.z st.u s).1.step = 0) :
    tsNext P st = { st with nan := true, certificate := none } := by
  unfold tsNext
  rcases h with h | h | ⟨s, h, h2⟩
  · rw [h]
  · rw [h]; cases st.nan <;> rfl
  · rw [h]; cases st.nan <;> simp [h2]

/-! ### The loop as an iteration -/

/-- The state after `k` iterations. -/
noncomputable def tsIter (P : TSArgs E) (k : ℕ) : TSState E := (tsNext P)^[k] (tsInit P)

theorem tsIter_succ (P : TSArgs E) (k : ℕ) : tsIter P (k + 1) = tsNext P (tsIter P k) := Function.iterate_succ_apply' _ _ _

theorem tsLoop_spec (P : TSArgs E) : ∀ rem it, let r := tsLoop P rem it (tsIter P it)
    it ≤ r.2.1 ∧ r.2.1 ≤ it + rem ∧ r.1 = tsIter P (r.2.1 + 1) ∧
    (∀ i, it ≤ i → i < r.2.1 → tsCallback P i (tsIter P (i + 1)) = false ∧ ¬tsDone P i (tsIter P (i + 1))) ∧
    (r.2.2 = .callback ↔ tsCallback P r.2.1 (tsIter P (r.2.1 + 1)) = true) ∧
    (r.2.2 = .success ↔ tsCallback P r.2.1 (tsIter P (r.2.1 + 1)) = false ∧ tsDone P r.2.1 (tsIter P (r.2.1 + 1))) ∧
    (r.2.2 = .exhausted → r.2.1 = it + rem) := by
  intro rem
  induction rem with
  | zero =>
    intro it
    have he := tsIter_succ P it
    rw [tsLoop]
    simp only
    generalize tsNext P (tsIter P it) = st' at he
    by_cases h1 : tsCallback P it st' = true
    · rw [if_pos h1]
      exact ⟨le_refl _, by simp, he.symm, fun i h h' => absurd (show i < it from h') (by omega), by simp [he, h1], by simp [he, h1], by simp⟩
    · rw [if_neg h1]
      have h1' : tsCallback P it st' = false := by simpa using h1
      by_cases h2 : tsDone P it st'
      · rw [if_pos h2]
        exact ⟨le_refl _, by simp, he.symm, fun i h h' => absurd (show i < it from h') (by omega), by simp [he, h1'], by simp [he, h1', h2],
          by simp⟩
      · rw [if_neg h2]
        exact ⟨le_refl _, by simp, he.symm, fun i h h' => absurd (show i < it from h') (by omega), by simp [he, h1'], by simp [he, h1', h2],
          by simp⟩
  | succ rem ih =>
    intro it
    have he := tsIter_succ P it
    rw [tsLoop]
    simp only
    generalize tsNext P (tsIter P it) = st' at he
    by_cases h1 : tsCallback P it st' = true
    · rw [if_pos h1]
      exact ⟨le_refl _, by simp, he.symm, fun i h h' => absurd (show i < it from h') (by omega), by simp [he, h1], by simp [he, h1], by simp⟩
    · rw [if_neg h1]
      have h1' : tsCallback P it st' = false := by simpa using h1
      by_cases h2 : tsDone P it st'
      · rw [if_pos h2]
        exact ⟨le_refl _, by simp, he.symm, fun i h h' => absurd (show i < it from h') (by omega), by simp [he, h1'], by simp [he, h1', h2],
          by simp⟩
      · rw [if_neg h2]
        have ih' := ih (it + 1)
        rw [he] at ih'
        obtain ⟨a, b, c, d, e, f, g⟩ := ih'
        refine ⟨by omega, by omega, c, fun i hi hi' => ?_, e, f, fun h => by rw [g h]; omega⟩
        rcases Nat.eq_or_lt_of_le hi with rfl | hlt
        · rw [he]; exact ⟨h1', h2⟩
        · exact d i hlt hi'

/-- A run that returns, in terms of the iteration. -/
theorem minimizeTS_ok {P : TSArgs E} {res : TSResult E} (h : minimizeThreeSplit P = .ok res) :
    0 < P.btIter ∧ res.nit < P.maxIter ∧ (res.x = if (tsIter P (res.nit + 1)).nan then none else some (tsIter P (res.nit + 1)).x) ∧
    res.certificate = (tsIter P (res.nit + 1)).certificate ∧ res.stepSize = (tsIter P (res.nit + 1)).step ∧
    res.log = (tsIter P (res.nit + 1)).log ∧ res.z = (tsIter P (res.nit + 1)).z ∧ res.u = (tsIter P (res.nit + 1)).u ∧
    (res.success = true ↔ res.why = .success) ∧
    (∀ i < res.nit, tsCallback P i (tsIter P (i + 1)) = false ∧ ¬tsDone P i (tsIter P (i + 1))) ∧
    (res.why = .callback ↔ tsCallback P res.nit (tsIter P (res.nit + 1)) = true) ∧
    (res.why = .success ↔ tsCallback P res.nit (tsIter P (res.nit + 1)) = false ∧ tsDone P res.nit (tsIter P (res.nit + 1))) ∧
    (res.why = .exhausted → res.nit + 1 = P.maxIter) := by
  unfold minimizeThreeSplit at h
  split at h
  · cases h
  · rename_i hbt
    split at h
    · cases h
    · rename_i m hm
      have hh := Except.ok.inj h
      obtain ⟨a, b, c, d, e, f, g⟩ := tsLoop_spec P m 0
      rw [show tsIter P 0 = tsInit P from rfl] at a b c d e f g
      subst hh
      refine ⟨by omega, by simp only; omega, by simp only [c], by simp only [c], by simp only [c], by simp only [c], by simp only [c],
        by simp only [c], by simp, fun i hi => d i (Nat.zero_le _) hi, e, f, fun h => ?_⟩
      rw [hm, g h]; simp

theorem minimizeTS_total {P : TSArgs E} (hbt : 0 < P.btIter) (hm : 0 < P.maxIter) : ∃ res, minimizeThreeSplit P = .ok res := by
  unfold minimizeThreeSplit
  rw [if_neg (by omega)]
  split
  · omega
  · exact ⟨_, rfl⟩

/-! ### Invariants -/

/-- The step sizes given by the caller are positive. -/
structure TSOk (P : TSArgs E) : Prop where
  factor : 0 < P.factor
  step : ∀ s, P.stepSize = some s → 0 < s

theorem TSOk.step0_pos {P : TSArgs E} (h : TSOk P) : 0 < P.step0 := by
  unfold TSArgs.step0
  cases hs : P.stepSize with
  | some s => exact h.step s hs
  | none => exact div_pos one_pos (initLipschitz_pos _ _)

/-- The step size at the start of an iteration is never negative. -/
theorem tsIter_step_nonneg {P : TSArgs E} (h : TSOk P) (k : ℕ) : ∀ s, (tsIter P k).step = some s → 0 ≤ s := by
  induction k with
  | zero =>
    intro s hs
    rw [show tsIter P 0 = tsInit P from rfl] at hs
    cases hs
    exact h.step0_pos.le
  | succ k ih =>
    intro s hs
    rw [tsIter_succ] at hs
    by_cases hc : (tsIter P k).nan = true ∨ (tsIter P k).step = none ∨
        ∃ s, (tsIter P k).step = some s ∧ (tsStep P (tsIter P k).z (tsIter P k).u s).1.step = 0
    · rw [tsNext_nan hc] at hs
      exact ih s hs
    · push Not at hc
      obtain ⟨h1, h2, h3⟩ := hc
      obtain ⟨s0, hs0⟩ := Option.ne_none_iff_exists'.mp h2
      have hne := h3 s0 hs0
      rw [tsNext_eq (by simpa using h1) hs0 hne] at hs
      have hpos : 0 < s0 := by
        rcases (ih s0 hs0).lt_or_eq with h | h
        · exact h
        · rw [← h] at hne
          exact absurd (tsStep_zero _ _) hne
      exact tsGrow_nonneg (tsStep_spec h.factor _ _ hpos).2.1 hs

/-- An iteration that produced a certificate ran with finite values and a positive step. -/
theorem tsIter_cert {P : TSArgs E} (h : TSOk P) {k : ℕ} {c : ℝ} (hc : (tsIter P (k + 1)).certificate = some c) :
    (tsIter P k).nan = false ∧ ∃ s, (tsIter P k).step = some s ∧ 0 < s := by
  rw [tsIter_succ] at hc
  by_cases hb : (tsIter P k).nan = true ∨ (tsIter P k).step = none ∨
      ∃ s, (tsIter P k).step = some s ∧ (tsStep P (tsIter P k).z (tsIter P k).u s).1.step = 0
  · rw [tsNext_nan hb] at hc; cases hc
  · push Not at hb
    obtain ⟨h1, h2, h3⟩ := hb
    obtain ⟨s0, hs0⟩ := Option.ne_none_iff_exists'.mp h2
    refine ⟨by simpa using h1, s0, hs0, ?_⟩
    rcases (tsIter_step_nonneg h k s0 hs0).lt_or_eq with h | h
    · exact h
    · have := h3 s0 hs0
      rw [← h] at this
      exact absurd (tsStep_zero _ _) this

theorem tsIter_nan_mono {P : TSArgs E} {k : ℕ} (hn : (tsIter P (k + 1)).nan = false) : (tsIter P k).nan = false := by
  by_contra hc
  rw [tsIter_succ, tsNext_nan (Or.inl (by simpa using hc))] at hn
  cases hn

/-- A finite state after an iteration: that iteration had a positive step. -/
theorem tsIter_fin {P : TSArgs E} (h : TSOk P) {k : ℕ} (hn : (tsIter P (k + 1)).nan = false) :
    (tsIter P k).nan = false ∧ ∃ s, (tsIter P k).step = some s ∧ 0 < s := by
  have h0 := tsIter_nan_mono hn
  rw [tsIter_succ] at hn
  by_cases hb : (tsIter P k).nan = true ∨ (tsIter P k).step = none ∨
      ∃ s, (tsIter P k).step = some s ∧ (tsStep P (tsIter P k).z (tsIter P k).u s).1.step = 0
  · rw [tsNext_nan hb] at hn; cases hn
  · push Not at hb
    obtain ⟨h1, h2, h3⟩ := hb
    obtain ⟨s0, hs0⟩ := Option.ne_none_iff_exists'.mp h2
    refine ⟨h0, s0, hs0, ?_⟩
    rcases (tsIter_step_nonneg h k s0 hs0).lt_or_eq with h | h
    · exact h
    · have := h3 s0 hs0
      rw [← h] at this
      exact absurd (tsStep_zero _ _) this

/-- After every iteration `u` is a subgradient of `h` at `z`, whatever the step sizes were. -/
theorem tsIter_subgrad {P : TSArgs E} (h : TSOk P) {H : ExtFun E} (hH : H.IsConvex) (hp : IsProxOf H P.p2) {k : ℕ}
    (hn : (tsIter P (k + 1)).nan = false) : IsSubgrad H (tsIter P (k + 1)).z (tsIter P (k + 1)).u := by
  obtain ⟨h0, s, hs, hpos⟩ := tsIter_fin h hn
  obtain ⟨a, b, -⟩ := tsStep_spec h.factor (tsIter P k).z (tsIter P k).u hpos
  rw [tsIter_succ, tsNext_eq h0 hs b.ne']
  simp only
  set r := (tsStep P (tsIter P k).z (tsIter P k).u s).1
  have hz := (hp (r.x + r.step • (tsIter P k).u) r.step b).subgrad hH b
  convert hz using 1
  rw [add_sub_right_comm, smul_add, smul_smul, inv_mul_cancel₀ b.ne', one_smul, add_comm]

end Copt
