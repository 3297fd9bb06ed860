import Verif.Model.FloatPdSearch
import Verif.Proof.FloatLineSearch

/-!
# The line search of the primal-dual method ends in rounded arithmetic
-/

set_option linter.unusedSectionVars false

namespace Copt

open Spec

variable {d p : ℕ} {rd : ℝ → ℝ} {u eta : ℝ}

/-- Upper bounds of rounded numbers. -/
theorem rd_le_of_le (hr : Rounding rd u eta) (hu : u ≤ 1 / 1000) {x b : ℝ} (hb : 0 ≤ b) (hx : x ≤ b) : rd x ≤ 1001 / 1000 * b + eta := by
  have h1 := hr.mono hx
  have h2 := (abs_le.mp (hr.err b)).2
  rw [abs_of_nonneg hb] at h2
  have := mul_le_mul_of_nonneg_right hu hb
  linarith

theorem rd_ge_of_ge (hr : Rounding rd u eta) (hu : u ≤ 1 / 1000) {x b : ℝ} (hb : 0 ≤ b) (hx : b ≤ x) : 999 / 1000 * b - eta ≤ rd x := by
  have h1 := hr.mono hx
  have h2 := (abs_le.mp (hr.err b)).1
  rw [abs_of_nonneg hb] at h2
  have := mul_le_mul_of_nonneg_right hu hb
  linarith

/-- The second exit of the loop is taken for small steps, if the first one is not. -/
theorem pdsTest_accepts (hr : Rounding rd u eta) (hu : u ≤ 1 / 1000) (he : eta ≤ 1 / 10 ^ 24) {sigma t incr s S : ℝ} (hσ0 : 0 ≤ sigma) (ht0 : 0 ≤ t) (hS0 : 0 ≤ S) (hs : s ≤ S)
    (hst : sigma * t ≤ 1 / 16) (hσS : (sigma + eta) * S ≤ 1 / 10 ^ 22) (hi : rd (1 / 10 ^ 10) < incr) : pdsTest (flReal rd) sigma t incr s := by
  have he0 := hr.eta_nonneg
  obtain ⟨q, hq⟩ : ∃ q, q = rd (incr * incr) := ⟨_, rfl⟩
  have h10 := rd_ge_of_ge hr hu (show (0 : ℝ) ≤ 1 / 10 ^ 10 by norm_num) le_rfl
  have hinc : 98 / 100 * (1 / 10 ^ 10) ≤ incr := by norm_num at h10 he ⊢; linarith
  have hsq : 96 / 100 * (1 / 10 ^ 20) ≤ incr * incr := by
    have := mul_le_mul hinc hinc (by norm_num) (le_trans (by norm_num) hinc)
    norm_num at this ⊢
    linarith
  have hq0 : 95 / 100 * (1 / 10 ^ 20) ≤ q := by
    have := rd_ge_of_ge hr hu (by norm_num) hsq
    rw [← hq] at this
    norm_num at this he ⊢
    linarith
  have hqp : 0 ≤ q := le_trans (by norm_num) hq0
  have hP := rd_le_of_le hr hu (by norm_num) hst
  have ha : rd (rd (sigma * t) * q) ≤ 8 / 100 * q := by
    have h1 : rd (sigma * t) * q ≤ 7 / 100 * q := mul_le_mul_of_nonneg_right (by norm_num at hP he ⊢; linarith) hqp
    have h2 := rd_le_of_le hr hu (by linarith) h1
    norm_num at h2 he hq0 ⊢
    linarith
  have h2σ : rd (rd 2 * sigma) ≤ 3 * (sigma + eta) := by
    have h2 := rd_le_of_le hr hu (show (0 : ℝ) ≤ 2 by norm_num) le_rfl
    have h3 : rd 2 * sigma ≤ 21 / 10 * sigma := mul_le_mul_of_nonneg_right (by norm_num at h2 he ⊢; linarith) hσ0
    have h4 := rd_le_of_le hr hu (by linarith) h3
    linarith
  have h2σ0 : 0 ≤ rd (rd 2 * sigma) := hr.nonneg (mul_nonneg (hr.nonneg (by norm_num)) hσ0)
  have hb : rd (rd (rd 2 * sigma) * s) ≤ 8 / 100 * q := by
    have h1 : rd (rd 2 * sigma) * s ≤ 3 / 10 ^ 22 := by
      have h2 := mul_le_mul_of_nonneg_left hs h2σ0
      have h3 := mul_le_mul_of_nonneg_right h2σ hS0
      norm_num at hσS ⊢
      linarith
    have h2 := rd_le_of_le hr hu (by norm_num) h1
    norm_num at h2 he hq0 ⊢
    linarith
  have hab : rd (rd (rd (sigma * t) * q) + rd (rd (rd 2 * sigma) * s)) ≤ 2 / 10 * q := by
    have h2 := rd_le_of_le hr hu (by linarith) (add_le_add ha hb)
    norm_num at h2 he hq0 ⊢
    linarith
  have hhalf := rd_ge_of_ge hr hu (show (0 : ℝ) ≤ 1 / 2 by norm_num) le_rfl
  have hh : 4 / 10 ≤ rd (1 / 2) := by norm_num at hhalf he ⊢; linarith
  show rd (rd (rd (rd (sigma * t) * rd (incr * incr)) + rd (rd (rd 2 * sigma) * s)) / rd (1 / 2)) ≤ rd (incr * incr)
  rw [← hq]
  have h3 : rd (rd (rd (sigma * t) * q) + rd (rd (rd 2 * sigma) * s)) / rd (1 / 2) ≤ q := by
    rw [div_le_iff₀ (by linarith)]
    have := mul_le_mul_of_nonneg_left hh hqp
    linarith
  have h4 := hr.mono h3
  rwa [hq, hr.idem, ← hq] at h4

/-- The candidates `tau_next` of the search. -/
noncomputable def pdsTaus (rd : ℝ → ℝ) (T : ℝ) : ℕ → ℝ
  | 0 => T
  | i + 1 => rd (pdsTaus rd T i * rd (9 / 10))

theorem pdsTaus_bounds (hr : Rounding rd u eta) (hu : u ≤ 1 / 1000) (he : eta ≤ 1 / 10 ^ 24) {T : ℝ} (hT : 0 ≤ T) (i : ℕ) :
    0 ≤ pdsTaus rd T i ∧ pdsTaus rd T i ≤ T * (91 / 100) ^ i + 12 * eta := by
  have he0 := hr.eta_nonneg
  have h9 := rd_le_of_le hr hu (show (0 : ℝ) ≤ 9 / 10 by norm_num) le_rfl
  have h90 : 0 ≤ rd (9 / 10) := hr.nonneg (by norm_num)
  induction i with
  | zero => exact ⟨hT, by simp only [pdsTaus, pow_zero]; linarith⟩
  | succ i ih =>
    refine ⟨hr.nonneg (mul_nonneg ih.1 h90), ?_⟩
    have h1 : pdsTaus rd T i * rd (9 / 10) ≤ 905 / 1000 * (T * (91 / 100) ^ i + 12 * eta) := by
      have h2 : rd (9 / 10) ≤ 905 / 1000 := by norm_num at h9 he ⊢; linarith
      have := mul_le_mul ih.2 h2 h90 (by positivity)
      linarith
    have h2 := rd_le_of_le hr hu (by positivity) h1
    have h3 : 0 ≤ T * (91 / 100) ^ i := by positivity
    rw [pdsTaus, pow_succ]
    linarith

/-- `sigma` of trial `i`. -/
noncomputable def pdsSigmas (rd : ℝ → ℝ) (P : PdsArgs ℝ d p) (T : ℝ) (i : ℕ) : ℝ := rd (pdsRatio (flReal rd) P * pdsTaus rd T i)

/-- The argument of `prox_1` in trial `i`. -/
noncomputable def pdsCand (rd : ℝ → ℝ) (P : PdsArgs ℝ d p) (k : ℕ) (st : PdsState ℝ d p) (yNext : Fin p → ℝ) (T : ℝ) (i : ℕ) : Fin d → ℝ :=
  pdsArg (flReal rd) (pdsSigmas rd P T i) st.x (P.rmatvec k i (pdsBar (flReal rd) (rd (pdsTaus rd T i / st.tau)) yNext st.y)) st.grad

/-- `f_next - fk - grad_fk.dot(x_next - x)` of trial `i`. -/
noncomputable def pdsSlack (rd : ℝ → ℝ) (P : PdsArgs ℝ d p) (k : ℕ) (st : PdsState ℝ d p) (i : ℕ) (x' : Fin d → ℝ) : ℝ :=
  rd (rd ((P.fg k i x').1 - st.fk) - P.dot k i st.grad (fun j => rd (x' j - st.x j)))

/-- What a finished search says: the error of a proximal operator, or a trial. -/
structure PdsFound (rd : ℝ → ℝ) (P : PdsArgs ℝ d p) (k : ℕ) (st : PdsState ℝ d p) (yNext : Fin p → ℝ) (T : ℝ) (i : ℕ) (r : PdsOut ℝ d) : Prop where
  point : P.prox1 k i (pdsCand rd P k st yNext T i) (pdsSigmas rd P T i) = .ok r.xNext
  fNext : r.fNext = (P.fg k i r.xNext).1
  gradNext : r.gradNext = (P.fg k i r.xNext).2
  theta : r.theta = rd (pdsTaus rd T i / st.tau)
  tau : r.tau = st.tau ∨ r.tau = pdsTaus rd T i
  sigma : r.sigma = pdsSigmas rd P T i

theorem pdsTrials_found (P : PdsArgs ℝ d p) (k : ℕ) (st : PdsState ℝ d p) (yNext : Fin p → ℝ) (T : ℝ) : ∀ fuel i out, pdsTrials (flReal rd) P k st yNext fuel i (pdsTaus rd T i) = some out →
    (∃ e, out = .error e) ∨ ∃ j r, out = .ok r ∧ i ≤ j ∧ j < i + fuel ∧ PdsFound rd P k st yNext T j r := by
  intro fuel
  induction fuel with
  | zero => intro i out h; exact absurd h (by simp [pdsTrials])
  | succ fuel ih =>
    intro i out h
    rw [pdsTrials] at h
    simp only at h
    split at h
    · next e he => exact Or.inl ⟨e, (Option.some.inj h).symm⟩
    · next x' hx' =>
      have hp : P.prox1 k i (pdsCand rd P k st yNext T i) (pdsSigmas rd P T i) = .ok x' := hx'
      split_ifs at h with h1 h2
      · exact Or.inr ⟨i, _, (Option.some.inj h).symm, le_rfl, by omega, hp, rfl, rfl, rfl, Or.inl rfl, rfl⟩
      · exact Or.inr ⟨i, _, (Option.some.inj h).symm, le_rfl, by omega, hp, rfl, rfl, rfl, Or.inr rfl, rfl⟩
      · rcases ih (i + 1) out h with h3 | ⟨j, r, h3, h4, h5, h6⟩
        · exact Or.inl h3
        · exact Or.inr ⟨j, r, h3, by omega, by omega, h6⟩

/-- The search ends at the latest in trial `N`, if the steps of this trial are small. -/
theorem pdsTrials_ends (P : PdsArgs ℝ d p) (k : ℕ) (st : PdsState ℝ d p) (yNext : Fin p → ℝ) (T : ℝ) (N : ℕ)
    (hN : ∀ x', P.prox1 k N (pdsCand rd P k st yNext T N) (pdsSigmas rd P T N) = .ok x' → ∀ incr, rd (1 / 10 ^ 10) < incr →
      pdsTest (flReal rd) (pdsSigmas rd P T N) (pdsTaus rd T N) incr (pdsSlack rd P k st N x')) :
    ∀ m i, i + m = N → pdsTrials (flReal rd) P k st yNext (m + 1) i (pdsTaus rd T i) ≠ none := by
  intro m
  induction m with
  | zero =>
    intro i hi
    obtain rfl : i = N := by omega
    rw [pdsTrials]
    simp only
    split
    · simp
    · next x' hx' =>
      split_ifs with h1 h2
      · simp
      · simp
      · exact absurd (hN x' hx' _ (not_le.mp h1)) h2
  | succ m ih =>
    intro i hi
    rw [pdsTrials]
    simp only
    split
    · simp
    · split_ifs
      · simp
      · simp
      · exact ih (i + 1) (by omega)

end Copt
