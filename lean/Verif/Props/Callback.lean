import Verif.Props.ProxGrad
import Verif.Props.Accelerated
import Verif.Props.PrimalDual

/-! # C95: what a callback sees and does in the proximal gradient methods and the primal-dual method

A callback is a function of the iteration number and of the local variables whose value `true` stands for Python's `False`.  The
statements compare a run with a callback to runs of the same solver without one. -/

set_option linter.unusedSectionVars false

namespace Copt

open scoped RealInnerProductSpace
open Spec

section PG
variable {E : Type} [NormedAddCommGroup E] [InnerProductSpace ℝ E]

/-- The same call without callback and with another `max_iter`. -/
def PGArgs.silent (P : PGArgs E) (m : ℕ) : PGArgs E := { P with callback := none, maxIter := m }

theorem pgBody_silent (P : PGArgs E) (m : ℕ) (st : PGState E) (h : (pgCallback P st).2 = false) :
    pgBody P st = pgBody (P.silent m) st := by
  have h1 : (pgCallback P st).1 = st := by unfold pgCallback; split <;> rfl
  unfold pgBody
  rw [if_neg (by rw [h]; simp), h1]
  rfl

theorem pgBody_stop (P : PGArgs E) (st : PGState E) (h : (pgCallback P st).2 = true) :
    pgBody P st = .ok (st, some .callback) := by
  have h1 : (pgCallback P st).1 = st := by unfold pgCallback; split <;> rfl
  unfold pgBody
  rw [if_pos h, h1]
  rfl

theorem pgBody_nit {P : PGArgs E} {st st' : PGState E} {w : Option PGWhy} (h : pgBody P st = .ok (st', w)) : st'.nit = st.nit := by
  rcases pgBody_cases h with ⟨-, -, rfl⟩ | ⟨-, r, -, rfl, -⟩
  · unfold pgCallback; split <;> rfl
  · have h1 : (pgCallback P st).1.nit = st.nit := by unfold pgCallback; split <;> rfl
    exact h1

theorem pgLoop_eq (P : PGArgs E) (rem : ℕ) (st : PGState E) :
    pgLoop P rem st = (pgBody P st >>= fun r => match r.2 with
      | some why => .ok (r.1, why)
      | none => match rem with
        | 0 => .ok (r.1, .exhausted)
        | rem + 1 => pgLoop P rem { r.1 with nit := r.1.nit + 1 }) := by
  conv_lhs => unfold pgLoop
  cases rem <;> rfl

theorem pgLoop_some {P : PGArgs E} {rem : ℕ} {st s : PGState E} {w : PGWhy} (h : pgBody P st = .ok (s, some w)) :
    pgLoop P rem st = .ok (s, w) := by rw [pgLoop_eq, h]; rfl

theorem pgLoop_zero {P : PGArgs E} {st s : PGState E} (h : pgBody P st = .ok (s, none)) :
    pgLoop P 0 st = .ok (s, .exhausted) := by rw [pgLoop_eq, h]; rfl

theorem pgLoop_succ {P : PGArgs E} {rem : ℕ} {st s : PGState E} (h : pgBody P st = .ok (s, none)) :
    pgLoop P (rem + 1) st = pgLoop P rem { s with nit := s.nit + 1 } := by rw [pgLoop_eq, h]; rfl

/-- A run of the loop as a chain of passes without callback, the callback being consulted at the head of each. -/
theorem pgLoop_chain {P : PGArgs E} {m rem : ℕ} {st fin : PGState E} {w : PGWhy} (h : pgLoop P rem st = .ok (fin, w)) :
    ∃ (S : ℕ → PGState E) (k : ℕ), S 0 = st ∧ k ≤ rem ∧ fin.nit = st.nit + k ∧ (∀ i ≤ k, (S i).nit = st.nit + i) ∧
      (∀ i < k, (pgCallback P (S i)).2 = false ∧
        ∃ s, pgBody (P.silent m) (S i) = .ok (s, none) ∧ S (i + 1) = { s with nit := s.nit + 1 }) ∧
      ((pgCallback P (S k)).2 = true ↔ w = .callback) ∧ (w = .callback → fin = S k) := by
  induction rem generalizing st with
  | zero =>
    cases hc : (pgCallback P st).2 with
    | true =>
      rw [pgLoop_some (pgBody_stop P st hc)] at h
      cases h
      exact ⟨fun _ => fin, 0, rfl, le_rfl, rfl, fun i hi => (by cases Nat.le_zero.mp hi; rfl), fun i hi => by omega, by simp [hc], fun _ => rfl⟩
    | false =>
      have hb := pgBody_silent P m st hc
      cases hr : pgBody P st with
      | error e => rw [pgLoop_eq, hr] at h; cases h
      | ok r =>
        obtain ⟨s, o⟩ := r
        have hw : w ≠ .callback := by
          rcases pgBody_cases hr with ⟨-, h1, -⟩ | ⟨-, r, -, -, h2⟩
          · rw [hc] at h1; cases h1
          · cases o with
            | none => rw [pgLoop_zero hr] at h; cases h; simp
            | some w' =>
              rw [pgLoop_some hr] at h
              cases h
              rcases h2 with ⟨h2, -⟩ | ⟨h2, -⟩ <;> cases h2
              simp
        have hn : fin.nit = st.nit := by
          cases o with
          | none => rw [pgLoop_zero hr] at h; cases h; exact pgBody_nit hr
          | some w' => rw [pgLoop_some hr] at h; cases h; exact pgBody_nit hr
        exact ⟨fun _ => st, 0, rfl, le_rfl, hn, fun i hi => (by cases Nat.le_zero.mp hi; rfl), fun i hi => by omega, by simp [hc, hw], fun h => absurd h hw⟩
  | succ rem ih =>
    cases hc : (pgCallback P st).2 with
    | true =>
      rw [pgLoop_some (pgBody_stop P st hc)] at h
      cases h
      exact ⟨fun _ => fin, 0, rfl, Nat.zero_le _, rfl, fun i hi => (by cases Nat.le_zero.mp hi; rfl), fun i hi => by omega, by simp [hc], fun _ => rfl⟩
    | false =>
      have hb := pgBody_silent P m st hc
      cases hr : pgBody P st with
      | error e => rw [pgLoop_eq, hr] at h; cases h
      | ok r =>
        obtain ⟨s, o⟩ := r
        have hsn := pgBody_nit hr
        cases o with
        | some w' =>
          have hw : w ≠ .callback := by
            rw [pgLoop_some hr] at h
            cases h
            rcases pgBody_cases hr with ⟨-, h1, -⟩ | ⟨-, r, -, -, h2⟩
            · rw [hc] at h1; cases h1
            · rcases h2 with ⟨h2, -⟩ | ⟨h2, -⟩ <;> cases h2
              simp
          have hn : fin.nit = st.nit := by rw [pgLoop_some hr] at h; cases h; exact hsn
          exact ⟨fun _ => st, 0, rfl, Nat.zero_le _, hn, fun i hi => (by cases Nat.le_zero.mp hi; rfl), fun i hi => by omega, by simp [hc, hw], fun h => absurd h hw⟩
        | none =>
          rw [pgLoop_succ hr] at h
          obtain ⟨S, k, h0, hk, hn, hS, hch, hcb, hf⟩ := ih h
          have h0n : ({ s with nit := s.nit + 1 } : PGState E).nit = st.nit + 1 := by show s.nit + 1 = _; rw [hsn]
          refine ⟨fun i => match i with | 0 => st | i + 1 => S i, k + 1, rfl, by omega, by rw [hn, h0n]; omega, ?_, ?_, hcb, hf⟩
          · intro i hi
            cases i with
            | zero => rfl
            | succ i => show (S i).nit = _; rw [hS i (by omega), h0n]; omega
          · intro i hi
            cases i with
            | zero => exact ⟨hc, s, by rw [← hb, hr], h0⟩
            | succ i => exact hch i (by omega)

/-- Passes without callback chained are a run of the silent loop that exhausts its iterations. -/
theorem pgLoop_of_chain {P : PGArgs E} {S : ℕ → PGState E} {k : ℕ}
    (h : ∀ i ≤ k, ∃ s, pgBody P (S i) = .ok (s, none) ∧ S (i + 1) = { s with nit := s.nit + 1 }) :
    ∃ s, pgLoop P k (S 0) = .ok (s, .exhausted) ∧ S (k + 1) = { s with nit := s.nit + 1 } := by
  induction k generalizing S with
  | zero =>
    obtain ⟨s, h1, h2⟩ := h 0 le_rfl
    exact ⟨s, pgLoop_zero h1, h2⟩
  | succ k ih =>
    obtain ⟨s, h1, h2⟩ := h 0 (Nat.zero_le _)
    obtain ⟨s', h3, h4⟩ := ih (S := fun i => S (i + 1)) fun i hi => h (i + 1) (by omega)
    exact ⟨s', by rw [pgLoop_succ h1, ← h2]; exact h3, h4⟩

/-- The body and the loop do not look at `max_iter`. -/
theorem pgLoop_silent_maxIter (P : PGArgs E) (m m' rem : ℕ) (st : PGState E) :
    pgLoop (P.silent m) rem st = pgLoop (P.silent m') rem st := by
  have hb : ∀ st, pgBody (P.silent m) st = pgBody (P.silent m') st := fun st => rfl
  induction rem generalizing st with
  | zero => rw [pgLoop_eq, pgLoop_eq, hb]
  | succ rem ih => rw [pgLoop_eq, pgLoop_eq, hb]; simp only [ih]

/-- **C95 (proximal gradient).** A run with a callback that ends with `nit = n` has called it exactly at the heads of iterations
`0, ..., n`, the `i`-th time with the iteration number `i` and an `x` which is the point returned by the same call without callback
and with `max_iter = i - 1` (`x0` for `i = 0`).  It was stopped by the callback exactly when the last of these calls returned False,
none of the earlier ones did, and a stopped run returns the `x` shown to the last call. -/
theorem C95_proximal_gradient {P : PGArgs E} {cb : ℕ → PGState E → Bool} (hcb : P.callback = some cb) {res : PGResult E}
    (h : minimizeProximalGradient P = .ok res) :
    ∃ S : ℕ → PGState E, (S 0).x = P.x0 ∧
      (∀ i < res.nit, ∃ r, minimizeProximalGradient (P.silent i) = .ok r ∧ r.why = .exhausted ∧ r.nit = i ∧ (S (i + 1)).x = r.x ∧
        r.success = false) ∧
      (∀ i ≤ res.nit, (S i).nit = i ∧ (cb i (S i) = true ↔ res.why = .callback ∧ i = res.nit)) ∧
      (res.why = .callback → res.x = (S res.nit).x ∧ res.success = false) := by
  obtain ⟨hbt, fin, w, hl, rfl⟩ := minimizePG_ok h
  obtain ⟨S, k, h0, hk, hn, hS, hch, hw, hf⟩ := pgLoop_chain (m := P.maxIter) hl
  have hnk : fin.nit = k := by rw [hn]; show 0 + k = k; omega
  have hS' : ∀ i ≤ k, (S i).nit = i := fun i hi => by rw [hS i hi]; show 0 + i = i; omega
  have hcall : ∀ i ≤ k, (pgCallback P (S i)).2 = cb i (S i) := by
    intro i hi
    unfold pgCallback
    rw [hcb]
    show cb (S i).nit (S i) = _
    rw [hS' i hi]
  refine ⟨S, by rw [h0]; rfl, ?_, ?_, ?_⟩
  · intro i hi
    rw [show (PGResult.nit _) = fin.nit from rfl, hnk] at hi
    obtain ⟨s, h1, h2⟩ := pgLoop_of_chain (P := P.silent i) (S := S) (k := i) fun j hj => (hch j (by omega)).2
    refine ⟨{ x := s.x, success := false, certificate := s.certificate, nit := s.nit, stepSize := s.stepSize, trace := s.trace,
              warned := false, why := .exhausted, log := s.log, warnLs := s.warnLs }, ?_, rfl, ?_, by rw [h2], rfl⟩
    · unfold minimizeProximalGradient
      rw [if_neg (by show ¬ P.btIter ≤ 0; omega), show pgInit (P.silent i) = S 0 from h0.symm, show (P.silent i).maxIter = i from rfl, h1]
      rfl
    · have := hS' (i + 1) (by omega)
      rw [h2] at this
      exact Nat.succ_injective this
  · intro i hi
    rw [show (PGResult.nit _) = fin.nit from rfl, hnk] at hi
    refine ⟨hS' i hi, ?_⟩
    show _ ↔ w = .callback ∧ i = fin.nit
    rw [hnk, ← hcall i hi]
    rcases lt_or_eq_of_le hi with hlt | rfl
    · rw [(hch i hlt).1]; simp; omega
    · simp [hw]
  · intro hwc
    have hwc : w = .callback := hwc
    refine ⟨?_, ?_⟩
    · show fin.x = (S fin.nit).x
      rw [hnk, hf hwc]
    · subst hwc; rfl

/-- **C95 (proximal gradient).** A callback that never returns False changes nothing. -/
theorem C95_proximal_gradient_passive (P : PGArgs E) {cb : ℕ → PGState E → Bool} (hcb : P.callback = some cb)
    (hf : ∀ i st, cb i st = false) : minimizeProximalGradient P = minimizeProximalGradient { P with callback := none } := by
  have hc : ∀ st, (pgCallback P st).2 = false := fun st => by unfold pgCallback; rw [hcb]; exact hf _ _
  have hl : ∀ rem st, pgLoop P rem st = pgLoop (P.silent P.maxIter) rem st := by
    intro rem
    induction rem with
    | zero => intro st; rw [pgLoop_eq, pgLoop_eq, pgBody_silent P P.maxIter st (hc st)]
    | succ rem ih => intro st; rw [pgLoop_eq, pgLoop_eq, pgBody_silent P P.maxIter st (hc st)]; simp only [ih]
  unfold minimizeProximalGradient
  rw [hl]
  rfl

/-- **C95 (proximal gradient).** A callback that returns False at its first call makes the run return `x0`, whatever the other
arguments (with an admissible number of line search iterations). -/
theorem C95_proximal_gradient_immediate (P : PGArgs E) {cb : ℕ → PGState E → Bool} (hcb : P.callback = some cb)
    (h0 : ∀ st, cb 0 st = true) (hbt : 0 < P.btIter) :
    ∃ res, minimizeProximalGradient P = .ok res ∧ res.x = P.x0 ∧ res.nit = 0 ∧ res.success = false ∧ res.log = [] := by
  have hc : (pgCallback P (pgInit P)).2 = true := by unfold pgCallback; rw [hcb]; exact h0 _
  refine ⟨{ x := P.x0, success := false, certificate := none, nit := 0, stepSize := pgStep0 P, trace := [], warned := false,
            why := .callback, log := [], warnLs := 0 }, ?_, rfl, rfl, rfl, rfl⟩
  unfold minimizeProximalGradient
  rw [if_neg (by omega), pgLoop_some (pgBody_stop P _ hc)]
  rfl

end PG

section APG
variable {E : Type} [NormedAddCommGroup E] [InnerProductSpace ℝ E]

/-- The same call without callback and with another `max_iter`. -/
def APGArgs.silent (P : APGArgs E) (m : ℕ) : APGArgs E := { P with callback := none, maxIter := m }

/-- The local variables a callback sees at the head of an iteration: `grad_fk` is the gradient at `yk` (line 204). -/
def apgSeen (P : APGArgs E) (st : APGState E) : APGState E := { st with grad := (P.fg st.yk).2 }

theorem apgBody_silent (P : APGArgs E) (m : ℕ) (s0 : ℝ) (st : APGState E) (h : apgCallback P (apgSeen P st) = false) :
    apgBody P s0 st = apgBody (P.silent m) s0 st := by
  unfold apgBody
  rw [if_neg (by rw [show ({ st with grad := (P.fg st.yk).2 } : APGState E) = apgSeen P st from rfl, h]; simp)]
  rfl

theorem apgBody_stop (P : APGArgs E) (s0 : ℝ) (st : APGState E) (h : apgCallback P (apgSeen P st) = true) :
    apgBody P s0 st = (apgSeen P st, some .callback) := by
  unfold apgBody
  exact if_pos h

theorem apgBody_nit (P : APGArgs E) (s0 : ℝ) (st : APGState E) : (apgBody P s0 st).1.nit = st.nit := by
  rcases apgBody_cases (P := P) (s0 := s0) st with ⟨-, -, h, -⟩ | ⟨-, -, h, -⟩
  · rw [h]
  · rw [h]
    unfold apgStepBranch
    split
    · rfl
    · split <;> rfl

theorem apgLoop_some {P : APGArgs E} {s0 : ℝ} {rem : ℕ} {st : APGState E} {w : PGWhy} (h : (apgBody P s0 st).2 = some w) :
    apgLoop P s0 rem st = ((apgBody P s0 st).1, w) := by
  conv_lhs => unfold apgLoop
  simp only [h]

theorem apgLoop_zero {P : APGArgs E} {s0 : ℝ} {st : APGState E} (h : (apgBody P s0 st).2 = none) :
    apgLoop P s0 0 st = ((apgBody P s0 st).1, .exhausted) := by
  conv_lhs => unfold apgLoop
  simp only [h]

theorem apgLoop_succ {P : APGArgs E} {s0 : ℝ} {rem : ℕ} {st : APGState E} (h : (apgBody P s0 st).2 = none) :
    apgLoop P s0 (rem + 1) st = apgLoop P s0 rem { (apgBody P s0 st).1 with nit := (apgBody P s0 st).1.nit + 1 } := by
  conv_lhs => unfold apgLoop
  simp only [h]

/-- The result `r` of a run of the accelerated loop from `st` is a chain of passes without callback, the callback being consulted at
the head of each. -/
def APGChain (P : APGArgs E) (m : ℕ) (s0 : ℝ) (rem : ℕ) (st : APGState E) (r : APGState E × PGWhy) : Prop :=
  ∃ (R : ℕ → APGState E) (k : ℕ), R 0 = st ∧ k ≤ rem ∧ r.1.nit = st.nit + k ∧ (∀ i ≤ k, (R i).nit = st.nit + i) ∧
    (∀ i < k, apgCallback P (apgSeen P (R i)) = false ∧ (apgBody (P.silent m) s0 (R i)).2 = none ∧
      R (i + 1) = { (apgBody (P.silent m) s0 (R i)).1 with nit := (apgBody (P.silent m) s0 (R i)).1.nit + 1 }) ∧
    (apgCallback P (apgSeen P (R k)) = true ↔ r.2 = .callback) ∧ (r.2 = .callback → r.1 = apgSeen P (R k))

theorem apgLoop_chain (P : APGArgs E) (m : ℕ) (s0 : ℝ) (rem : ℕ) (st : APGState E) :
    APGChain P m s0 rem st (apgLoop P s0 rem st) := by
  have stop : ∀ rem st, apgCallback P (apgSeen P st) = true → APGChain P m s0 rem st (apgLoop P s0 rem st) := by
    intro rem st hc
    rw [apgLoop_some (w := .callback) (by rw [apgBody_stop P s0 st hc]), apgBody_stop P s0 st hc]
    exact ⟨fun _ => st, 0, rfl, Nat.zero_le _, rfl, fun i hi => (by cases Nat.le_zero.mp hi; rfl), fun i hi => by omega, by simp [hc],
      fun _ => rfl⟩
  have hne : ∀ st, apgCallback P (apgSeen P st) = false → (apgBody P s0 st).2 ≠ some .callback := by
    intro st hc
    rcases apgBody_cases (P := P) (s0 := s0) st with ⟨h, -⟩ | ⟨h, -⟩
    · rw [show apgCallback P { st with grad := (P.fg st.yk).2 } = apgCallback P (apgSeen P st) from rfl, hc] at h; cases h
    · exact h
  have last : ∀ rem st w, apgCallback P (apgSeen P st) = false → w ≠ .callback →
      APGChain P m s0 rem st ((apgBody P s0 st).1, w) := by
    intro rem st w hc hw
    exact ⟨fun _ => st, 0, rfl, Nat.zero_le _, apgBody_nit P s0 st, fun i hi => (by cases Nat.le_zero.mp hi; rfl), fun i hi => by omega,
      by simp [hc, hw], fun h => absurd h hw⟩
  induction rem generalizing st with
  | zero =>
    cases hc : apgCallback P (apgSeen P st) with
    | true => exact stop 0 st hc
    | false =>
      cases ho : (apgBody P s0 st).2 with
      | none => rw [apgLoop_zero ho]; exact last 0 st .exhausted hc (by simp)
      | some w => rw [apgLoop_some ho]; exact last 0 st w hc (by rintro rfl; exact hne st hc ho)
  | succ rem ih =>
    cases hc : apgCallback P (apgSeen P st) with
    | true => exact stop _ st hc
    | false =>
      cases ho : (apgBody P s0 st).2 with
      | some w => rw [apgLoop_some ho]; exact last _ st w hc (by rintro rfl; exact hne st hc ho)
      | none =>
        rw [apgLoop_succ ho]
        have hb := apgBody_silent P m s0 st hc
        have hn := apgBody_nit P s0 st
        obtain ⟨R, k, h0, hk, hn', hR, hch, hcb, hf⟩ := ih { (apgBody P s0 st).1 with nit := (apgBody P s0 st).1.nit + 1 }
        have h0n : (R 0).nit = st.nit + 1 := by rw [h0]; show (apgBody P s0 st).1.nit + 1 = _; rw [hn]
        have hn1 : (apgBody P s0 st).1.nit + 1 + k = st.nit + (k + 1) := by rw [hn]; omega
        refine ⟨fun i => match i with | 0 => st | i + 1 => R i, k + 1, rfl, by omega, by rw [hn']; exact hn1, ?_, ?_, hcb, hf⟩
        · intro i hi
          cases i with
          | zero => rfl
          | succ i =>
            show (R i).nit = _
            rw [hR i (by omega)]
            show (apgBody P s0 st).1.nit + 1 + i = _
            rw [hn]; omega
        · intro i hi
          cases i with
          | zero => exact ⟨hc, by rw [← hb]; exact ho, by rw [← hb]; exact h0⟩
          | succ i => exact hch i (by omega)

theorem apgLoop_of_chain {P : APGArgs E} {s0 : ℝ} {R : ℕ → APGState E} {k : ℕ}
    (h : ∀ i ≤ k, (apgBody P s0 (R i)).2 = none ∧ R (i + 1) = { (apgBody P s0 (R i)).1 with nit := (apgBody P s0 (R i)).1.nit + 1 }) :
    (apgLoop P s0 k (R 0)).2 = .exhausted ∧ R (k + 1) = { (apgLoop P s0 k (R 0)).1 with nit := (apgLoop P s0 k (R 0)).1.nit + 1 } := by
  induction k generalizing R with
  | zero =>
    obtain ⟨h1, h2⟩ := h 0 le_rfl
    rw [apgLoop_zero h1]
    exact ⟨rfl, h2⟩
  | succ k ih =>
    obtain ⟨h1, h2⟩ := h 0 (Nat.zero_le _)
    have h3 := ih (R := fun i => R (i + 1)) fun i hi => h (i + 1) (by omega)
    simp only [Nat.zero_add] at h3 h2
    rw [apgLoop_succ h1, ← h2]
    exact h3

/-- **C95 (accelerated method).** As `C95_proximal_gradient`. -/
theorem C95_accelerated {P : APGArgs E} {cb : ℕ → APGState E → Bool} (hcb : P.callback = some cb) {res : APGResult E}
    (h : minimizeAccelerated P = .ok res) :
    ∃ S : ℕ → APGState E, (S 0).x = P.x0 ∧
      (∀ i < res.nit, ∃ r, minimizeAccelerated (P.silent i) = .ok r ∧ r.why = .exhausted ∧ r.nit = i ∧ (S (i + 1)).x = r.x ∧
        r.success = false) ∧
      (∀ i ≤ res.nit, (S i).nit = i ∧ (cb i (S i) = true ↔ res.why = .callback ∧ i = res.nit)) ∧
      (res.why = .callback → res.x = (S res.nit).x ∧ res.success = false) := by
  unfold minimizeAccelerated at h
  split at h
  · cases h
  · rename_i hbt
    obtain ⟨R, k, h0, hk, hn, hR, hch, hw, hf⟩ := apgLoop_chain P P.maxIter ((apgStep0 P).getD 0) P.maxIter (apgInit P)
    simp only at h
    generalize apgLoop P ((apgStep0 P).getD 0) P.maxIter (apgInit P) = q at h hn hw hf
    cases h
    have hnk : q.1.nit = k := by rw [hn]; show 0 + k = k; omega
    have hR' : ∀ i ≤ k, (R i).nit = i := fun i hi => by rw [hR i hi]; show 0 + i = i; omega
    have hcall : ∀ i ≤ k, apgCallback P (apgSeen P (R i)) = cb i (apgSeen P (R i)) := by
      intro i hi
      unfold apgCallback
      rw [hcb]
      show cb (R i).nit _ = _
      rw [hR' i hi]
    refine ⟨fun i => apgSeen P (R i), by show (R 0).x = _; rw [h0]; rfl, ?_, ?_, ?_⟩
    · intro i hi
      rw [show (APGResult.nit _) = q.1.nit from rfl, hnk] at hi
      obtain ⟨h1, h2⟩ := apgLoop_of_chain (P := P.silent i) (s0 := (apgStep0 P).getD 0) (R := R) (k := i)
        fun j hj => (hch j (by omega)).2
      have e0 : R 0 = apgInit (P.silent i) := h0
      refine ⟨_, by unfold minimizeAccelerated; rw [if_neg (show ¬ (P.silent i).btIter ≤ 0 from hbt)], ?_, ?_, ?_, ?_⟩
      · show (apgLoop (P.silent i) ((apgStep0 P).getD 0) i (apgInit (P.silent i))).2 = _
        rw [← e0]; exact h1
      · show (apgLoop (P.silent i) ((apgStep0 P).getD 0) i (apgInit (P.silent i))).1.nit = _
        rw [← e0]
        have := hR' (i + 1) (by omega)
        rw [h2] at this
        exact Nat.succ_injective this
      · show (R (i + 1)).x = (apgLoop (P.silent i) ((apgStep0 P).getD 0) i (apgInit (P.silent i))).1.x
        rw [← e0, h2]
      · show decide ((apgLoop (P.silent i) ((apgStep0 P).getD 0) i (apgInit (P.silent i))).2 = .success) = false
        rw [← e0, h1]; rfl
    · intro i hi
      rw [show (APGResult.nit _) = q.1.nit from rfl, hnk] at hi
      refine ⟨hR' i hi, ?_⟩
      show _ ↔ q.2 = .callback ∧ i = q.1.nit
      rw [hnk, ← hcall i hi]
      rcases lt_or_eq_of_le hi with hlt | rfl
      · rw [(hch i hlt).1]; simp; omega
      · simp [hw]
    · intro hwc
      have hwc : q.2 = .callback := hwc
      refine ⟨?_, ?_⟩
      · show q.1.x = (apgSeen P (R q.1.nit)).x
        rw [hnk, hf hwc]
      · show decide (q.2 = .success) = false
        rw [hwc]; rfl

/-- **C95 (accelerated method).** A callback that never returns False changes nothing. -/
theorem C95_accelerated_passive (P : APGArgs E) {cb : ℕ → APGState E → Bool} (hcb : P.callback = some cb)
    (hf : ∀ i st, cb i st = false) : minimizeAccelerated P = minimizeAccelerated { P with callback := none } := by
  have hc : ∀ st, apgCallback P st = false := fun st => by unfold apgCallback; rw [hcb]; exact hf _ _
  have hl : ∀ s0 rem st, apgLoop P s0 rem st = apgLoop (P.silent P.maxIter) s0 rem st := by
    intro s0 rem
    induction rem with
    | zero =>
      intro st
      conv_lhs => unfold apgLoop
      conv_rhs => unfold apgLoop
      rw [apgBody_silent P P.maxIter s0 st (hc _)]
    | succ rem ih =>
      intro st
      conv_lhs => unfold apgLoop
      conv_rhs => unfold apgLoop
      rw [apgBody_silent P P.maxIter s0 st (hc _)]
      simp only [ih]
  unfold minimizeAccelerated
  rw [hl]
  rfl

end APG

section PD
variable {E F : Type} [NormedAddCommGroup E] [InnerProductSpace ℝ E] [NormedAddCommGroup F] [InnerProductSpace ℝ F]

/-- The same call without callback and with another `max_iter`. -/
def PDArgs.silent (P : PDArgs E F) (m : ℕ) : PDArgs E F := { P with callback := none, maxIter := m }

theorem pdLoop_eq (P : PDArgs E F) (rem it : ℕ) (st : PDState E F) :
    pdLoop P rem it st = match pdNext P it st with
      | none => none
      | some st' =>
        open Classical in
        if pdDone P st' then some (st', it, .success)
        else if pdCallback P it st' then some (st', it, .callback)
        else match rem with
          | 0 => some (st', it, .exhausted)
          | rem + 1 => pdLoop P rem (it + 1) st' := by
  conv_lhs => unfold pdLoop
  cases rem <;> rfl

/-- What a run of the loop shows to the callback: `S i` after iteration `it + i`. -/
theorem pdLoop_chain {P : PDArgs E F} (m : ℕ) {rem it : ℕ} {st : PDState E F} {r : PDState E F × ℕ × TSWhy}
    (h : pdLoop P rem it st = some r) :
    ∃ (S : ℕ → PDState E F) (k : ℕ), k ≤ rem ∧ r.2.1 = it + k ∧ r.1 = S k ∧
      (∀ i ≤ k, ∃ w, pdLoop (P.silent m) i it st = some (S i, it + i, w) ∧ (i < k → w = .exhausted) ∧ (w = .exhausted ∨ w = .success) ∧
        (w = .success ↔ i = k ∧ r.2.2 = .success)) ∧
      (∀ i < k, pdCallback P (it + i) (S i) = false) ∧ (r.2.2 = .callback ↔ r.2.2 ≠ .success ∧ pdCallback P (it + k) (S k) = true) := by
  have hnx : ∀ it st, pdNext (P.silent m) it st = pdNext P it st := fun _ _ => rfl
  have hdn : ∀ st, pdDone (P.silent m) st = pdDone P st := fun _ => rfl
  have hcb0 : ∀ it st, pdCallback (P.silent m) it st = false := fun _ _ => rfl
  have h' := h
  rw [pdLoop_eq] at h
  cases hn : pdNext P it st with
  | none => rw [hn] at h; cases h
  | some st' =>
    rw [hn] at h
    simp only at h
    by_cases hd : pdDone P st'
    · rw [if_pos hd] at h
      cases h
      refine ⟨fun _ => st', 0, Nat.zero_le _, rfl, rfl, ?_, fun i hi => by omega, by simp⟩
      intro i hi
      cases Nat.le_zero.mp hi
      refine ⟨.success, ?_, fun h => by omega, Or.inr rfl, by simp⟩
      rw [pdLoop_eq, hnx, hn]
      exact if_pos (show pdDone (P.silent m) st' from hd)
    · rw [if_neg hd] at h
      have h1 : pdLoop (P.silent m) 0 it st = some (st', it, .exhausted) := by
        rw [pdLoop_eq, hnx, hn]
        exact if_neg (show ¬ pdDone (P.silent m) st' from hd)
      cases hc : pdCallback P it st' with
      | true =>
        rw [hc, if_pos rfl] at h
        cases h
        refine ⟨fun _ => st', 0, Nat.zero_le _, rfl, rfl, ?_, fun i hi => by omega, by simp [hc]⟩
        intro i hi
        cases Nat.le_zero.mp hi
        exact ⟨.exhausted, h1, fun h => by omega, Or.inl rfl, by simp⟩
      | false =>
        rw [hc, if_neg (by simp)] at h
        cases rem with
        | zero =>
          cases h
          refine ⟨fun _ => st', 0, Nat.zero_le _, rfl, rfl, ?_, fun i hi => by omega, by simp [hc]⟩
          intro i hi
          cases Nat.le_zero.mp hi
          exact ⟨.exhausted, h1, fun h => by omega, Or.inl rfl, by simp⟩
        | succ rem =>
          simp only at h
          obtain ⟨S, k, hk, hr, hr1, hall, hcb, hw⟩ := pdLoop_chain m h
          refine ⟨fun i => match i with | 0 => st' | i + 1 => S i, k + 1, by omega, by rw [hr]; omega, hr1, ?_, ?_, ?_⟩
          · intro i hi
            cases i with
            | zero => exact ⟨.exhausted, h1, fun _ => rfl, Or.inl rfl, by simp⟩
            | succ i =>
              obtain ⟨w, h2, h3, h4, h5⟩ := hall i (by omega)
              refine ⟨w, ?_, fun hi => h3 (by omega), h4, by rw [h5]; simp⟩
              rw [pdLoop_eq, hnx, hn]
              simp only
              rw [if_neg (show ¬ pdDone (P.silent m) st' from hd), hcb0, if_neg (by simp), h2, show it + 1 + i = it + (i + 1) by omega]
          · intro i hi
            cases i with
            | zero => exact hc
            | succ i =>
              have := hcb i (by omega)
              rw [show it + 1 + i = it + (i + 1) by omega] at this
              exact this
          · rw [hw, show it + 1 + k = it + (k + 1) by omega]
termination_by rem

/-- **C95 (primal-dual method).** A run that ends with `nit = n` has called the callback after each of the iterations `0, ..., n - 1`,
and after iteration `n` unless that one met the tolerance; the call after iteration `i` sees the `x` that the same call without
callback returns for `max_iter = i + 1`.  The run was stopped by the callback exactly when the call after iteration `n` was made and
returned False, none of the earlier ones did; the run returns the last `x` shown. -/
theorem C95_primal_dual {P : PDArgs E F} {cb : ℕ → PDState E F → Bool} (hcb : P.callback = some cb) {res : PDResult E F}
    (h : minimizePrimalDual P = some (.ok res)) :
    ∃ S : ℕ → PDState E F,
      (∀ i ≤ res.nit, ∃ r, minimizePrimalDual (P.silent (i + 1)) = some (.ok r) ∧ r.nit = i ∧ r.x = (S i).x ∧
        (r.success = true ↔ i = res.nit ∧ res.success = true)) ∧
      (∀ i < res.nit, cb i (S i) = false) ∧ (res.why = .callback ↔ res.success = false ∧ cb res.nit (S res.nit) = true) ∧
      res.x = (S res.nit).x := by
  have hcall : ∀ i st, pdCallback P i st = cb i st := fun i st => by unfold pdCallback; rw [hcb]
  unfold minimizePrimalDual at h
  split at h
  · cases h
  · rename_i hls
    split at h
    · cases h
    · rename_i m hm
      rw [Option.map_eq_some_iff] at h
      obtain ⟨q, hq, hres⟩ := h
      obtain ⟨S, k, hk, hr, hr1, hall, hc, hw⟩ := pdLoop_chain m hq
      cases hres
      obtain ⟨q1, q2, q3⟩ := q
      simp only at hr hr1 hw ⊢
      obtain rfl : q2 = k := by omega
      subst hr1
      refine ⟨S, ?_, ?_, ?_, rfl⟩
      · intro i hi
        obtain ⟨w, h1, -, -, h4⟩ := hall i hi
        have h1' : pdLoop (P.silent (i + 1)) i 0 (pdInit (P.silent (i + 1))) = some (S i, i, w) := by
          have e : ∀ rem it st, pdLoop (P.silent (i + 1)) rem it st = pdLoop (P.silent m) rem it st := by
            intro rem
            induction rem with
            | zero => intro it st; rw [pdLoop_eq, pdLoop_eq]; rfl
            | succ rem ih => intro it st; rw [pdLoop_eq, pdLoop_eq]; simp only [ih]; rfl
          rw [e]
          simp only [Nat.zero_add] at h1
          exact h1
        refine ⟨_, by unfold minimizePrimalDual; rw [if_neg (show ¬ (P.silent (i + 1)).lsIter ≤ 0 from hls)]; show Option.map _ (pdLoop (P.silent (i + 1)) i 0 (pdInit (P.silent (i + 1)))) = _; rw [h1']; rfl, rfl, rfl, ?_⟩
        simp only [decide_eq_true_eq]
        exact h4
      · intro i hi
        have := hc i hi
        rw [Nat.zero_add, hcall] at this
        exact this
      · rw [Nat.zero_add, hcall] at hw
        rw [hw]
        simp

end PD

/-! ### Concrete runs: `f(x) = x²/2` from `x0 = 1`, stopped by a callback that returns False at iteration 3 -/

/-- `minimize_proximal_gradient` with a callback that returns False at iteration 3. -/
noncomputable def cbArgs : PGArgs ℝ :=
  { fg := fun x => (x ^ 2 / 2, x), x0 := 1, prox := none, tol := 0, maxIter := 10, callback := some fun i _ => decide (i = 3),
    step := .callable fun _ _ => 1 / 2, btIter := 100, factor := 6 / 10, traceCert := false, store := id }

/-- C95 on a concrete run: it stops at iteration 3 with the point of the run without callback and `max_iter = 2`. -/
example : ∃ res r, minimizeProximalGradient cbArgs = .ok res ∧ res.nit = 3 ∧ res.why = .callback ∧
    minimizeProximalGradient (cbArgs.silent 2) = .ok r ∧ res.x = r.x := by
  obtain ⟨res, h, h1, h2, h3, h4, h5⟩ := C48_accounting_partial (P := cbArgs) rfl (Or.inr ⟨_, rfl, fun _ _ => by norm_num⟩) (by decide)
  obtain ⟨res', h', -, -, -, -, hnc, hsw, -, -⟩ := pg_run (P := cbArgs) rfl (Or.inr ⟨_, rfl, fun _ _ => by norm_num⟩) (by decide)
  obtain rfl : res = res' := by rw [h] at h'; exact Except.ok.inj h'
  obtain ⟨S, -, hS, hS', hw⟩ := C95_proximal_gradient (P := cbArgs) rfl h
  have hle : res.nit ≤ 3 := by
    by_contra hlt
    have := (hS' 3 (by omega)).2.mp (by simp)
    omega
  have hwhy : res.why = .callback := by
    by_contra hne
    obtain ⟨-, pre, e, hl, -, -, hse⟩ := hnc hne
    obtain ⟨-, hue, i, st, hu⟩ := pg_callable_log (P := cbArgs) rfl h e (by rw [hl]; simp)
    have hpos : 0 < e.step := by rw [← hue, hu]; norm_num
    have hs : res.success ≠ true := fun hs => absurd (hse.mp hs) (not_lt.mpr (div_nonneg (norm_nonneg _) hpos.le))
    have : res.why = .exhausted := by
      cases hq : res.why with
      | success => exact absurd (hsw.mpr hq) hs
      | exhausted => rfl
      | callback => exact absurd hq hne
    have := (h4 this).1
    rw [show cbArgs.maxIter = 10 from rfl] at this
    omega
  have hn : res.nit = 3 := by
    have := (hS' res.nit le_rfl).2.mpr ⟨hwhy, rfl⟩
    simpa using this
  obtain ⟨r, hr, -, -, hx, -⟩ := hS 2 (by omega)
  exact ⟨res, r, h, hn, hwhy, hr, by rw [(hw hwhy).1, hn, ← hx]⟩

/-- The same for the accelerated method. -/
example : ∃ res r, minimizeAccelerated { accArgs (fun _ => 1 / 2) 0 10 with callback := some fun i _ => decide (i = 3) } = .ok res ∧
    res.nit = 3 ∧ res.why = .callback ∧ minimizeAccelerated (accArgs (fun _ => 1 / 2) 0 2) = .ok r ∧ res.x = r.x := by
  obtain ⟨res, h, -, -, -, hnc, hsw, hex, -⟩ :=
    apg_run (P := { accArgs (fun _ => 1 / 2) 0 10 with callback := some fun i _ => decide (i = 3) }) (Or.inl ⟨_, rfl⟩) (by decide)
  obtain ⟨S, -, hS, hS', hw⟩ := C95_accelerated (cb := fun i _ => decide (i = 3)) rfl h
  have hle : res.nit ≤ 3 := by
    by_contra hlt
    have := (hS' 3 (by omega)).2.mp (by simp)
    omega
  have hwhy : res.why = .callback := by
    by_contra hne
    obtain ⟨pre, yk, s, hl, -, hc, hse⟩ := hnc hne
    have hs : res.success ≠ true := by
      intro hs
      obtain ⟨c, hc', hlt⟩ := hse.mp hs
      rw [hc] at hc'
      unfold pgCert at hc'
      split at hc'
      · cases hc'
      · rw [← Option.some.inj hc'] at hlt
        exact absurd hlt (not_lt.mpr (norm_nonneg _))
    have : res.why = .exhausted := by
      cases hq : res.why with
      | success => exact absurd (hsw.mpr hq) hs
      | exhausted => rfl
      | callback => exact absurd hq hne
    have : res.nit = 10 := hex this
    omega
  have hn : res.nit = 3 := by
    have := (hS' res.nit le_rfl).2.mpr ⟨hwhy, rfl⟩
    simpa using this
  obtain ⟨r, hr, -, -, hx, -⟩ := hS 2 (by omega)
  exact ⟨res, r, h, hn, hwhy, hr, by rw [(hw hwhy).1, hn, ← hx]⟩

/-- The same for the primal-dual method, whose callback runs after the iteration. -/
example : ∃ res r, minimizePrimalDual { pdQuad false 0 10 with callback := some fun i _ => decide (i = 3) } = some (.ok res) ∧
    res.nit = 3 ∧ res.why = .callback ∧ minimizePrimalDual (pdQuad false 0 4) = some (.ok r) ∧ res.x = r.x := by
  have hok : PDOk { pdQuad false 0 10 with callback := some fun i _ => decide (i = 3) } LinearMap.id LinearMap.id :=
    ⟨rfl, rfl, fun _ _ => rfl, by norm_num [pdQuad], fun t h => by cases h⟩
  have ht := C55_terminates hok (G := ExtFun.zero) ExtFun.isConvex_zero isProxOf_zero (f := fun x => x ^ 2 / 2) (g := fun x => x) rfl
    (Lf := 1) (by norm_num) (by
      intro x y
      show y ^ 2 / 2 ≤ x ^ 2 / 2 + (y - x) * x + 1 / 2 * |y - x| ^ 2
      rw [sq_abs]; nlinarith)
  obtain ⟨q, hq⟩ := Option.ne_none_iff_exists'.mp ht
  have hq' := hq
  unfold minimizePrimalDual at hq'
  rw [if_neg (by norm_num [pdQuad])] at hq'
  change Option.map _ (pdLoop _ 9 0 _) = _ at hq'
  rw [Option.map_eq_some_iff] at hq'
  obtain ⟨q0, -, hq0⟩ := hq'
  obtain ⟨res, rfl⟩ : ∃ res, q = .ok res := ⟨_, hq0.symm⟩
  obtain ⟨S, hS, hcb, hw, hx⟩ := C95_primal_dual (cb := fun i _ => decide (i = 3)) rfl hq
  obtain ⟨-, -, -, hsw, -, hex, -⟩ := pd_run hq
  have hs : res.success = false := by
    cases hs : res.success with
    | false => rfl
    | true =>
      have := (C54_success hq hs).2.2
      exact absurd this (not_lt.mpr (add_nonneg (norm_nonneg _) (norm_nonneg _)))
  have hle : res.nit ≤ 3 := by
    by_contra hlt
    have := hcb 3 (by omega)
    simp at this
  have hwhy : res.why = .callback := by
    cases hq : res.why with
    | success => rw [hsw.mpr hq] at hs; cases hs
    | exhausted =>
      have := hex hq
      rw [show (PDArgs.maxIter _) = 10 from rfl] at this
      omega
    | callback => rfl
  have hn : res.nit = 3 := by simpa using (hw.mp hwhy).2
  obtain ⟨r, hr, -, hrx, -⟩ := hS 3 (by omega)
  exact ⟨res, r, hq, hn, hwhy, hr, by rw [hx, hn, hrx]⟩

end Copt
