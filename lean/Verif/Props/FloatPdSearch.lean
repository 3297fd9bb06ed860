import Verif.Proof.FloatPdSearch
import Verif.Props.FloatPrimalDual
import Verif.Props.FloatLineSearch

/-!
# Property C133: the line search of the primal-dual method in floating point
-/

set_option linter.unusedSectionVars false

namespace Copt

open Spec

variable {α : Type} {n d p : ℕ} {rd : ℝ → ℝ} {u eta : ℝ}

/-! ### One search -/

/-- **C133 (one search).** The search ends after at most `N + 1` trials in any arithmetic, underflow included, as soon as `N` reductions make the steps small compared with the largest computed value
`S` of `f_next - fk - grad_fk.dot(x_next - x)`.  Nothing is assumed on the accuracy of the oracles. -/
theorem C133_search (hr : Rounding rd u eta) (hu : u ≤ 1 / 1000) (he : eta ≤ 1 / 10 ^ 24) (P : PdsArgs ℝ d p) (k : ℕ) (st : PdsState ℝ d p) (yNext : Fin p → ℝ) {T c S : ℝ} (hT : 0 ≤ T)
    (hratio : 0 ≤ pdsRatio (flReal rd) P) (hS0 : 0 ≤ S)
    (hS : ∀ i x', P.prox1 k i (pdsCand rd P k st yNext T i) (pdsSigmas rd P T i) = .ok x' → pdsSlack rd P k st i x' ≤ S) (N : ℕ) (hN : T * (91 / 100) ^ N + 12 * eta ≤ c)
    (h1 : (2 * pdsRatio (flReal rd) P * c + eta) * c ≤ 1 / 16) (h2 : (2 * pdsRatio (flReal rd) P * c + 2 * eta) * S ≤ 1 / 10 ^ 22) :
    pdsTrials (flReal rd) P k st yNext (N + 1) 0 T ≠ none := by
  have he0 := hr.eta_nonneg
  obtain ⟨ht0, htc⟩ := pdsTaus_bounds hr hu he hT N
  have htc := htc.trans hN
  have hσ0 : 0 ≤ pdsSigmas rd P T N := hr.nonneg (mul_nonneg hratio ht0)
  have hσ : pdsSigmas rd P T N ≤ 2 * pdsRatio (flReal rd) P * c + eta := by
    have h3 := rd_le_of_le hr hu (mul_nonneg hratio (ht0.trans htc)) (mul_le_mul_of_nonneg_left htc hratio)
    have := mul_nonneg hratio (ht0.trans htc)
    unfold pdsSigmas
    linarith
  refine pdsTrials_ends P k st yNext T N (fun x' hx' incr hi => ?_) N 0 (by omega)
  refine pdsTest_accepts hr hu he hσ0 ht0 hS0 (hS N x' hx') ?_ ?_ hi
  · exact (mul_le_mul hσ htc ht0 (hσ0.trans hσ)).trans h1
  · exact (mul_le_mul_of_nonneg_right (by linarith) hS0).trans h2

/-! ### More fuel does not change the result -/

theorem pdsTrials_mono (O : FlOps α) (P : PdsArgs α d p) (k : ℕ) (st : PdsState α d p) (yNext : Fin p → α) : ∀ fuel fuel' i t out, fuel ≤ fuel' →
    pdsTrials O P k st yNext fuel i t = some out → pdsTrials O P k st yNext fuel' i t = some out := by
  intro fuel
  induction fuel with
  | zero => intro fuel' i t out _ h; exact absurd h (by simp [pdsTrials])
  | succ fuel ih =>
    intro fuel' i t out hf h
    obtain ⟨f', rfl⟩ : ∃ f', fuel' = f' + 1 := ⟨fuel' - 1, by omega⟩
    rw [pdsTrials] at h ⊢
    simp only at h ⊢
    split at h
    · exact h
    · split_ifs at h ⊢ with h1 h2
      · exact h
      · exact h
      · exact ih f' _ _ _ (by omega) h

theorem pdsNext_mono (O : FlOps α) (P : PdsArgs α d p) (k : ℕ) (st : PdsState α d p) {fuel fuel' : ℕ} (hf : fuel ≤ fuel') {out} (h : pdsNext O P fuel k st = some out) :
    pdsNext O P fuel' k st = some out := by
  unfold pdsNext at h ⊢
  simp only at h ⊢
  cases hq : P.prox2 k (fun a => O.div (pdsPoint O P k st a) st.tau) (O.div (O.lit 1) st.tau) with
  | error e => rw [hq] at h; exact h
  | ok q =>
    rw [hq] at h
    simp only at h ⊢
    cases ht : pdsTrials O P k st (fun a => O.sub (pdsPoint O P k st a) (O.mul st.tau (q a))) fuel 0 (pdsFirst O st) with
    | none => rw [ht] at h; exact absurd h (by simp)
    | some r => rw [ht] at h; rw [pdsTrials_mono O P k st _ fuel fuel' _ _ _ hf ht]; exact h

theorem pdsLoop_mono (O : FlOps α) (P : PdsArgs α d p) {fuel fuel' : ℕ} (hf : fuel ≤ fuel') : ∀ m it st out, pdsLoop O P fuel m it st = some out → pdsLoop O P fuel' m it st = some out := by
  intro m
  induction m with
  | zero =>
    intro it st out h
    rw [pdsLoop] at h ⊢
    cases hn : pdsNext O P fuel it st with
    | none => rw [hn] at h; exact absurd h (by simp)
    | some r => rw [hn] at h; rw [pdsNext_mono O P it st hf hn]; exact h
  | succ m ih =>
    intro it st out h
    rw [pdsLoop] at h ⊢
    cases hn : pdsNext O P fuel it st with
    | none => rw [hn] at h; exact absurd h (by simp)
    | some r =>
      rw [hn] at h
      rw [pdsNext_mono O P it st hf hn]
      cases r with
      | error e => exact h
      | ok st' =>
        simp only at h ⊢
        split_ifs at h ⊢
        · exact h
        · exact ih _ _ _ h

/-! ### Runs -/

/-- The computed values of the functions are bounded on bounded sets; no accuracy is required. -/
structure PdsBounded (P : PdsArgs ℝ d p) : Prop where
  fg : ∀ R, ∃ B, ∀ k i x, (∀ j, |x j| ≤ R) → (P.fg k i x).1 ≤ B
  prox1 : ∀ R s0, ∃ B, ∀ k i v s x', (∀ j, |v j| ≤ R) → 0 < s → s ≤ s0 → P.prox1 k i v s = .ok x' → ∀ j, |x' j| ≤ B
  rmatvec : ∀ R, ∃ B, ∀ k i y, (∀ a, |y a| ≤ R) → ∀ j, |P.rmatvec k i y j| ≤ B
  dot : ∀ R, ∃ B, ∀ k i a b, (∀ j, |a j| ≤ R) → (∀ j, |b j| ≤ R) → |P.dot k i a b| ≤ B

/-- A finite vector is bounded. -/
theorem exists_abs_bound {m : ℕ} (v : Fin m → ℝ) : ∃ R, 0 ≤ R ∧ ∀ j, |v j| ≤ R :=
  ⟨∑ j, |v j|, Finset.sum_nonneg fun _ _ => abs_nonneg _, fun j => Finset.single_le_sum (f := fun j => |v j|) (fun _ _ => abs_nonneg _) (Finset.mem_univ j)⟩

theorem rd_abs_le (hr : Rounding rd u 0) (hu : u ≤ 1 / 1000) {x b : ℝ} (hx : |x| ≤ b) : |rd x| ≤ 2 * b := by
  have h1 := hr.err x
  have h2 := abs_sub_abs_le_abs_sub (rd x) x
  have h3 := mul_le_mul_of_nonneg_right hu (abs_nonneg x)
  linarith [abs_nonneg x]

theorem rd_pos (hr : Rounding rd u 0) (hu : u ≤ 1 / 1000) {x : ℝ} (hx : 0 < x) : 0 < rd x := by
  have := rd_ge_of_ge hr hu hx.le le_rfl
  linarith

/-- Every search from a state with positive steps ends. -/
theorem pdsTrials_terminates (hr : Rounding rd u 0) (hu : u ≤ 1 / 1000) {P : PdsArgs ℝ d p} (hP : PdsBounded P) (hratio : 0 < pdsRatio (flReal rd) P) (k : ℕ) (st : PdsState ℝ d p) (yNext : Fin p → ℝ)
    {T : ℝ} (hT : 0 < T) (htau : 0 < st.tau) : ∃ fuel, pdsTrials (flReal rd) P k st yNext fuel 0 T ≠ none := by
  have h9p : 0 < rd (9 / 10) := rd_pos hr hu (by norm_num)
  have htp : ∀ i, 0 < pdsTaus rd T i := by
    intro i
    induction i with
    | zero => exact hT
    | succ i ih => exact rd_pos hr hu (mul_pos ih h9p)
  have htT : ∀ i, pdsTaus rd T i ≤ T := by
    intro i
    have h1 := (pdsTaus_bounds hr hu (by norm_num) hT.le i).2
    have h2 : (91 / 100 : ℝ) ^ i ≤ 1 := pow_le_one₀ (by norm_num) (by norm_num)
    have h3 := mul_le_mul_of_nonneg_left h2 hT.le
    linarith
  obtain ⟨ρ, hρ⟩ : ∃ ρ, ρ = pdsRatio (flReal rd) P := ⟨_, rfl⟩
  rw [← hρ] at hratio
  obtain ⟨Rx, hRx0, hRx⟩ := exists_abs_bound st.x
  obtain ⟨Ry, hRy0, hRy⟩ := exists_abs_bound st.y
  obtain ⟨Rn, hRn0, hRn⟩ := exists_abs_bound yNext
  obtain ⟨Rg, hRg0, hRg⟩ := exists_abs_bound st.grad
  have hσ : ∀ i, 0 < pdsSigmas rd P T i ∧ pdsSigmas rd P T i ≤ 2 * (ρ * T) := by
    intro i
    unfold pdsSigmas
    rw [← hρ]
    refine ⟨rd_pos hr hu (mul_pos hratio (htp i)), ?_⟩
    have h1 : |ρ * pdsTaus rd T i| ≤ ρ * T := by
      rw [abs_of_pos (mul_pos hratio (htp i))]
      exact mul_le_mul_of_nonneg_left (htT i) hratio.le
    exact (le_abs_self _).trans (rd_abs_le hr hu h1)
  have hbar : ∀ i a, |pdsBar (flReal rd) (rd (pdsTaus rd T i / st.tau)) yNext st.y a| ≤ 2 * (Rn + 2 * (2 * (T / st.tau) * (2 * (Rn + Ry)))) := by
    intro i a
    have h1 : |rd (yNext a - st.y a)| ≤ 2 * (Rn + Ry) := rd_abs_le hr hu ((abs_sub _ _).trans (add_le_add (hRn a) (hRy a)))
    have h2 : |rd (pdsTaus rd T i / st.tau)| ≤ 2 * (T / st.tau) := rd_abs_le hr hu (by
      rw [abs_of_pos (div_pos (htp i) htau)]
      exact div_le_div_of_nonneg_right (htT i) htau.le)
    have h3 : |rd (rd (pdsTaus rd T i / st.tau) * rd (yNext a - st.y a))| ≤ 2 * (2 * (T / st.tau) * (2 * (Rn + Ry))) := rd_abs_le hr hu (by
      rw [abs_mul]
      exact mul_le_mul h2 h1 (abs_nonneg _) ((abs_nonneg _).trans h2))
    exact rd_abs_le hr hu ((abs_add_le _ _).trans (add_le_add (hRn a) h3))
  obtain ⟨Bm, hBm⟩ := hP.rmatvec (2 * (Rn + 2 * (2 * (T / st.tau) * (2 * (Rn + Ry)))))
  have hcand : ∀ i j, |pdsCand rd P k st yNext T i j| ≤ 2 * (Rx + 2 * (2 * (ρ * T) * (2 * (Bm + Rg)))) := by
    intro i j
    have h1 := rd_abs_le hr hu ((abs_add_le _ _).trans (add_le_add (hBm k i _ (hbar i) j) (hRg j)))
    have h2 := rd_abs_le hr hu (b := 2 * (ρ * T) * (2 * (Bm + Rg))) (x := pdsSigmas rd P T i * rd (P.rmatvec k i (pdsBar (flReal rd) (rd (pdsTaus rd T i / st.tau)) yNext st.y) j + st.grad j)) (by
      rw [abs_mul, abs_of_pos (hσ i).1]
      exact mul_le_mul (hσ i).2 h1 (abs_nonneg _) (by positivity))
    exact rd_abs_le hr hu ((abs_sub _ _).trans (add_le_add (hRx j) h2))
  obtain ⟨Bx, hBx⟩ := hP.prox1 (2 * (Rx + 2 * (2 * (ρ * T) * (2 * (Bm + Rg))))) (2 * (ρ * T))
  obtain ⟨Bf, hBf⟩ := hP.fg Bx
  obtain ⟨Bd, hBd⟩ := hP.dot (max Rg (2 * (Bx + Rx)))
  obtain ⟨S, hSe⟩ : ∃ S, S = 2 * (2 * (|Bf| + |st.fk|) + |Bd|) := ⟨_, rfl⟩
  have hS0 : 0 ≤ S := by rw [hSe]; positivity
  have hS : ∀ i x', P.prox1 k i (pdsCand rd P k st yNext T i) (pdsSigmas rd P T i) = .ok x' → pdsSlack rd P k st i x' ≤ S := by
    intro i x' hx'
    have h1 := hBx k i _ _ x' (hcand i) (hσ i).1 (hσ i).2 hx'
    have h2 := hBf k i x' h1
    have h3 := hBd k i st.grad (fun j => rd (x' j - st.x j)) (fun j => (hRg j).trans (le_max_left _ _))
      (fun j => (rd_abs_le hr hu ((abs_sub _ _).trans (add_le_add (h1 j) (hRx j)))).trans (le_max_right _ _))
    have h4 : (P.fg k i x').1 - st.fk ≤ |Bf| + |st.fk| := by linarith [le_abs_self Bf, neg_abs_le st.fk]
    have h5 := rd_le_of_le hr hu (by positivity) h4
    have h6 : rd ((P.fg k i x').1 - st.fk) - P.dot k i st.grad (fun j => rd (x' j - st.x j)) ≤ 2 * (|Bf| + |st.fk|) + |Bd| := by
      have := (neg_abs_le (P.dot k i st.grad (fun j => rd (x' j - st.x j))))
      linarith [le_abs_self Bd, abs_nonneg Bf, abs_nonneg st.fk]
    have h7 := rd_le_of_le hr hu (by positivity) h6
    rw [hSe]
    unfold pdsSlack
    have : 0 ≤ 2 * (|Bf| + |st.fk|) + |Bd| := by positivity
    linarith
  obtain ⟨c, hc⟩ : ∃ c, c = min (min 1 (1 / (32 * ρ))) (1 / (2 * 10 ^ 22 * ρ * (S + 1))) := ⟨_, rfl⟩
  have hcp : 0 < c := by rw [hc]; positivity
  obtain ⟨N, hN⟩ := exists_pow_lt_of_lt_one (div_pos hcp hT) (show (91 / 100 : ℝ) < 1 by norm_num)
  refine ⟨N + 1, C133_search hr hu (by norm_num) P k st yNext (c := c) hT.le (by rw [← hρ]; exact hratio.le) hS0 hS N ?_ ?_ ?_⟩
  · rw [lt_div_iff₀ hT] at hN
    linarith
  · rw [← hρ]
    have h1 : c ≤ 1 := by rw [hc]; exact (min_le_left _ _).trans (min_le_left _ _)
    have h2 : c ≤ 1 / (32 * ρ) := by rw [hc]; exact (min_le_left _ _).trans (min_le_right _ _)
    rw [le_div_iff₀ (by positivity)] at h2
    have h3 := mul_le_mul_of_nonneg_left h1 (show 0 ≤ 2 * ρ * c by positivity)
    linarith
  · rw [← hρ]
    have h2 : c ≤ 1 / (2 * 10 ^ 22 * ρ * (S + 1)) := by rw [hc]; exact min_le_right _ _
    rw [le_div_iff₀ (by positivity)] at h2
    have h3 : 0 ≤ ρ * c := by positivity
    rw [le_div_iff₀ (by positivity)]
    linarith

/-- **C133 (partial).** In rounded arithmetic without overflow and underflow `minimize_primal_dual` with its default line search returns or raises, for every objective, proximal operators, operator
and starting point whose computed values stay bounded on bounded sets, and for all positive step sizes: some number of trials is enough for all its line searches.  Missing with respect to C133:
inputs for which values are nan, see `C133_refuted`. -/
theorem C133_terminates_partial (hr : Rounding rd u 0) (hu : u ≤ 1 / 1000) {P : PdsArgs ℝ d p} (hP : PdsBounded P) (hs : 0 < P.stepSize) (hs2 : ∀ t, P.stepSize2 = some t → 0 < t) :
    ∃ out fuel0, ∀ fuel, fuel0 ≤ fuel → pdsRun (flReal rd) P fuel = some out := by
  have hhalf : 0 < rd (1 / 2) := rd_pos hr hu (by norm_num)
  have hratio : 0 < pdsRatio (flReal rd) P := by
    unfold pdsRatio
    cases h : P.stepSize2 with
    | none => exact hhalf
    | some t => exact rd_pos hr hu (div_pos (hs2 t h) hs)
  have htau0 : 0 < pdsTau0 (flReal rd) P := by
    unfold pdsTau0
    cases h : P.stepSize2 with
    | none => exact rd_pos hr hu (mul_pos hhalf hs)
    | some t => exact hs2 t h
  have h1p : 0 < rd 1 := rd_pos hr hu one_pos
  have h2p : 0 < rd 2 := rd_pos hr hu two_pos
  have hnext : ∀ k (st : PdsState ℝ d p), 0 < st.tau → 0 ≤ st.theta → ∃ fuel out, pdsNext (flReal rd) P fuel k st = some out ∧ ∀ st', out = .ok st' → 0 < st'.tau ∧ 0 ≤ st'.theta := by
    intro k st htau htheta
    have hT : 0 < pdsFirst (flReal rd) st := by
      refine rd_pos hr hu (div_pos (rd_pos hr hu (mul_pos htau (rd_pos hr hu ?_))) h2p)
      have : 0 ≤ rd (Real.sqrt (rd (rd 1 + st.theta))) := hr.nonneg (Real.sqrt_nonneg _)
      show 0 < rd 1 + rd (Real.sqrt (rd (rd 1 + st.theta)))
      linarith
    unfold pdsNext
    simp only
    cases hq : P.prox2 k (fun a => (flReal rd).div (pdsPoint (flReal rd) P k st a) st.tau) ((flReal rd).div ((flReal rd).lit 1) st.tau) with
    | error e => exact ⟨0, .error e, rfl, fun st' h => absurd h (by simp)⟩
    | ok q =>
      simp only
      obtain ⟨fuel, hf⟩ := pdsTrials_terminates hr hu hP hratio k st (fun a => (flReal rd).sub (pdsPoint (flReal rd) P k st a) ((flReal rd).mul st.tau (q a))) hT htau
      obtain ⟨out, ho⟩ := Option.ne_none_iff_exists'.mp hf
      refine ⟨fuel, ?_⟩
      rw [ho]
      rcases pdsTrials_found P k st _ _ fuel 0 out ho with ⟨e, rfl⟩ | ⟨j, r, rfl, -, -, hj⟩
      · exact ⟨.error e, rfl, fun st' h => absurd h (by simp)⟩
      · refine ⟨_, rfl, fun st' h => ?_⟩
        obtain rfl := Except.ok.inj h
        have htp : ∀ i, 0 < pdsTaus rd (pdsFirst (flReal rd) st) i := by
          intro i
          induction i with
          | zero => exact hT
          | succ i ih => exact rd_pos hr hu (mul_pos ih (rd_pos hr hu (by norm_num)))
        constructor
        · show 0 < r.tau
          rcases hj.tau with h1 | h1
          · rw [h1]; exact htau
          · rw [h1]; exact htp j
        · show 0 ≤ r.theta
          rw [hj.theta]
          exact hr.nonneg (div_nonneg (htp j).le htau.le)
  have hloop : ∀ m it (st : PdsState ℝ d p), 0 < st.tau → 0 ≤ st.theta → ∃ fuel out, pdsLoop (flReal rd) P fuel m it st = some out := by
    intro m
    induction m with
    | zero =>
      intro it st h1 h2
      obtain ⟨fuel, out, h3, -⟩ := hnext it st h1 h2
      refine ⟨fuel, ?_⟩
      rw [pdsLoop, h3]
      cases out with
      | error e => exact ⟨_, rfl⟩
      | ok st' =>
        simp only
        split_ifs
        · exact ⟨_, rfl⟩
        · exact ⟨_, rfl⟩
    | succ m ih =>
      intro it st h1 h2
      obtain ⟨fuel, out, h3, h4⟩ := hnext it st h1 h2
      cases out with
      | error e =>
        refine ⟨fuel, .error e, ?_⟩
        rw [pdsLoop, h3]
      | ok st' =>
        obtain ⟨h5, h6⟩ := h4 st' rfl
        obtain ⟨fuel', out', h7⟩ := ih (it + 1) st' h5 h6
        refine ⟨max fuel fuel', ?_⟩
        rw [pdsLoop, pdsNext_mono _ P it st (le_max_left _ _) h3]
        simp only
        split_ifs
        · exact ⟨_, rfl⟩
        · exact ⟨out', pdsLoop_mono _ P (le_max_right _ _) m _ _ _ h7⟩
  unfold pdsRun
  split_ifs
  · exact ⟨_, 0, fun _ _ => rfl⟩
  · cases P.maxIter with
    | zero => exact ⟨_, 0, fun _ _ => rfl⟩
    | succ m =>
      obtain ⟨fuel, out, h⟩ := hloop m 0 (pdsInit (flReal rd) P) htau0 h1p.le
      exact ⟨out, fuel, fun fuel' hf => pdsLoop_mono _ P hf m 0 _ _ h⟩

/-! ### The losses and penalties of the library -/

theorem flProjSimplex_bounded (hr : Rounding rd u 0) (hu : u ≤ 1 / 1000) {sum s R : ℝ} (hR : 0 ≤ R) {v x' : Fin d → ℝ} (hv : ∀ j, |v j| ≤ R) (h : flProjSimplex rd sum v s = .ok x') :
    ∀ j, |x' j| ≤ 2 * (R + 2 * (2 * (4 ^ (d + 1) * R + |s|))) := by
  unfold flProjSimplex at h
  have hbig : R ≤ 2 * (R + 2 * (2 * (4 ^ (d + 1) * R + |s|))) := by
    have : 0 ≤ 2 * (2 * (4 ^ (d + 1) * R + |s|)) := by positivity
    linarith
  split_ifs at h with h1 h2
  · obtain rfl := Except.ok.inj h
    exact fun j => (hv j).trans hbig
  · simp only at h
    split at h
    · exact absurd h (by simp)
    · next rho hrho =>
      obtain rfl := Except.ok.inj h
      have hmem := List.mem_of_getLast? hrho
      unfold flCandidates at hmem
      rw [List.mem_filter, List.mem_range] at hmem
      have hlen : (sortDesc v).length = d := by simp [sortDesc]
      have hget : ∀ j, |(sortDesc v).getD j 0| ≤ R := by
        intro j
        by_cases hj : j < (sortDesc v).length
        · rw [List.getD_eq_getElem _ _ hj]
          have hm : (sortDesc v)[j] ∈ List.ofFn v := by
            have := List.getElem_mem hj
            unfold sortDesc at this
            rw [List.mem_reverse, List.mem_mergeSort] at this
            exact this
          obtain ⟨i, hi⟩ := (List.mem_ofFn' _ _).mp hm
          rw [← hi]
          exact hv i
        · rw [List.getD_eq_default _ _ (not_lt.mp hj), abs_zero]
          exact hR
      have hcs : ∀ k, |flCumsum rd (fun j => (sortDesc v).getD j 0) k| ≤ 4 ^ (k + 1) * R := by
        intro k
        induction k with
        | zero =>
          refine (hget 0).trans ?_
          norm_num
          linarith
        | succ k ih =>
          have h3 := rd_abs_le hr hu ((abs_add_le _ _).trans (add_le_add ih (hget (k + 1))))
          refine h3.trans ?_
          have h4 : (1 : ℝ) ≤ 4 ^ (k + 1) := one_le_pow₀ (by norm_num)
          have h5 := mul_le_mul_of_nonneg_right h4 hR
          rw [pow_succ (4 : ℝ) (k + 1)]
          linarith
      have hth : |rd (rd (flCumsum rd (fun j => (sortDesc v).getD j 0) rho - s) / ((rho : ℝ) + 1))| ≤ 2 * (2 * (4 ^ (d + 1) * R + |s|)) := by
        have h3 : |flCumsum rd (fun j => (sortDesc v).getD j 0) rho - s| ≤ 4 ^ (d + 1) * R + |s| := by
          refine (abs_sub _ _).trans (add_le_add_left ((hcs rho).trans (mul_le_mul_of_nonneg_right (pow_le_pow_right₀ (by norm_num) ?_) hR)) _)
          have := hmem.1
          omega
        have h4 := rd_abs_le hr hu h3
        refine rd_abs_le hr hu ?_
        rw [abs_div]
        refine (div_le_self (abs_nonneg _) ?_).trans h4
        rw [abs_of_nonneg (by positivity)]
        have : (0 : ℝ) ≤ rho := Nat.cast_nonneg _
        linarith
      intro j
      have h5 := rd_abs_le hr hu ((abs_sub _ _).trans (add_le_add (hv j) hth))
      refine le_trans ?_ h5
      simp only
      rw [abs_of_nonneg (le_max_right _ _)]
      exact max_le (le_abs_self _) (abs_nonneg _)

/-- The computed proximal operators are bounded on bounded sets. -/
theorem PenObj.flProxE_bounded (hr : Rounding rd u 0) (hu : u ≤ 1 / 1000) (pen : PenObj d) (hp : pen.FlGoodE) (R s0 : ℝ) :
    ∃ B, ∀ v s x', (∀ j, |v j| ≤ R) → 0 < s → s ≤ s0 → pen.FlProxE rd v s (.ok x') → ∀ j, |x' j| ≤ B := by
  by_cases hR : 0 ≤ R
  swap
  · refine ⟨0, fun v s x' hv _ _ _ j => absurd ((abs_nonneg _).trans (hv j)) hR⟩
  cases pen with
  | l1Norm alpha =>
    refine ⟨2 * (2 * (R + 2 * (s0 * |alpha|)) + 2 * (R + 2 * (s0 * |alpha|))), ?_⟩
    rintro v s x' hv hs hs0 ⟨q, rfl, he⟩ j
    obtain rfl := Except.ok.inj he
    have ht : |rd (s * alpha)| ≤ 2 * (s0 * |alpha|) := rd_abs_le hr hu (by
      rw [abs_mul, abs_of_pos hs]
      exact mul_le_mul_of_nonneg_right hs0 (abs_nonneg _))
    have ht' : |rd (alpha * s)| ≤ 2 * (s0 * |alpha|) := by rw [mul_comm]; exact ht
    unfold L1Norm.flProx
    refine rd_abs_le hr hu ((abs_sub _ _).trans (add_le_add ?_ ?_))
    · rw [abs_of_nonneg (le_max_right _ _)]
      refine max_le ((le_abs_self _).trans (rd_abs_le hr hu ((abs_sub _ _).trans (add_le_add (hv j) ?_)))) ?_
      · first | exact ht | exact ht'
      · have := (abs_nonneg _).trans ht
        linarith
    · rw [abs_of_nonneg (le_max_right _ _)]
      refine max_le ((le_abs_self _).trans (rd_abs_le hr hu ((abs_sub _ _).trans (add_le_add ((abs_neg _).le.trans (hv j)) ?_)))) ?_
      · first | exact ht | exact ht'
      · have := (abs_nonneg _).trans ht
        linarith
  | groupL1 alpha groups =>
    have ha : 0 ≤ alpha := hp.1
    refine ⟨10 ^ groups.length * R, ?_⟩
    rintro v s x' hv hs hs0 ⟨q, ⟨-, norm, -, rfl⟩, he⟩
    obtain rfl := Except.ok.inj he
    have hstep : ∀ (gs : List (List ℕ)) (out : Fin d → ℝ) (B : ℝ), (∀ j, |out j| ≤ B) →
        ∀ j, |(gs.foldl (fun out g => GroupL1.flProxGroup rd alpha s (norm g) out g) out) j| ≤ 10 ^ gs.length * B := by
      intro gs
      induction gs with
      | nil => intro out B h j; simpa using h j
      | cons g gs ih =>
        intro out B h j
        have hone : ∀ j, |GroupL1.flProxGroup rd alpha s (norm g) out g j| ≤ 10 * B := by
          intro j
          have hB := (abs_nonneg _).trans (h j)
          unfold GroupL1.flProxGroup
          split_ifs with hn
          · simp only
            split_ifs
            · have hc0 : 0 ≤ rd (s * alpha) := hr.nonneg (mul_nonneg hs.le ha)
              have hn' : rd (s * alpha) < norm g := by rw [mul_comm]; exact hn
              have hnp : 0 < norm g := hc0.trans_lt hn'
              have h1 : |rd (rd (s * alpha) * out j)| ≤ 2 * (norm g * B) := rd_abs_le hr hu (by
                rw [abs_mul, abs_of_nonneg hc0]
                exact mul_le_mul hn'.le (h j) (abs_nonneg _) hnp.le)
              have h2 : |rd (rd (rd (s * alpha) * out j) / norm g)| ≤ 2 * (2 * B) := rd_abs_le hr hu (by
                rw [abs_div, abs_of_pos hnp, div_le_iff₀ hnp]
                linarith)
              have h3 := rd_abs_le hr hu ((abs_sub _ _).trans (add_le_add (h j) h2))
              linarith
            · linarith [h j]
          · simp only
            split_ifs
            · rw [abs_zero]; linarith
            · linarith [h j]
        have := ih _ _ hone j
        rw [List.foldl_cons, List.length_cons, pow_succ]
        linarith
    exact hstep groups v R hv
  | linfBall alpha =>
    have ha : 0 ≤ alpha := hp
    refine ⟨alpha, ?_⟩
    rintro v s x' hv hs hs0 ⟨q, rfl, he⟩ j
    obtain rfl := Except.ok.inj he
    unfold LinfBall.prox
    rw [abs_le]
    exact ⟨le_min (le_max_right _ _) (by linarith), min_le_right _ _⟩
  | l2Ball alpha =>
    have ha : 0 < alpha := hp
    refine ⟨2 * (2 * R) + R, ?_⟩
    rintro v s x' hv hs hs0 ⟨q, ⟨norm, -, rfl⟩, he⟩ j
    obtain rfl := Except.ok.inj he
    unfold L2Ball.flProx
    split_ifs with hn
    · linarith [hv j]
    · have hnp : 0 < norm := ha.trans (not_le.mp hn)
      have h1 : |rd (alpha * v j)| ≤ 2 * (norm * R) := rd_abs_le hr hu (by
        rw [abs_mul, abs_of_pos ha]
        exact mul_le_mul (not_le.mp hn).le (hv j) (abs_nonneg _) hnp.le)
      have h2 : |rd (rd (alpha * v j) / norm)| ≤ 2 * (2 * R) := rd_abs_le hr hu (by
        rw [abs_div, abs_of_pos hnp, div_le_iff₀ hnp]
        linarith)
      linarith
  | l1Ball alpha =>
    refine ⟨2 * (2 * (R + 2 * (2 * (4 ^ (d + 1) * R + |alpha|)))) + R, ?_⟩
    rintro v s x' hv hs hs0 ⟨sum, -, he⟩ j
    have hpos : 0 ≤ 2 * (2 * (R + 2 * (2 * (4 ^ (d + 1) * R + |alpha|)))) := by positivity
    unfold L1Ball.flProx flProjL1Ball at he
    split_ifs at he with h1 h2
    · obtain rfl := Except.ok.inj he
      linarith [hv j]
    · simp only at he
      cases hw : flProjSimplex rd sum (fun i => |v i|) alpha with
      | error e => rw [hw] at he; exact absurd he (by simp [bind, Except.bind])
      | ok w' =>
        rw [hw] at he
        obtain rfl := Except.ok.inj he
        have h3 := flProjSimplex_bounded hr hu hR (v := fun i => |v i|) (fun j => by rw [abs_abs]; exact hv j) hw j
        have h4 : |rd (w' j * npSign (v j))| ≤ 2 * (2 * (R + 2 * (2 * (4 ^ (d + 1) * R + |alpha|)))) := rd_abs_le hr hu (by
          rw [abs_mul]
          have h5 : |npSign (v j)| ≤ 1 := by
            unfold npSign
            split_ifs <;> simp
          have := mul_le_mul h3 h5 (abs_nonneg _) ((abs_nonneg _).trans h3)
          rwa [mul_one] at this)
        linarith
  | simplex t =>
    refine ⟨2 * (R + 2 * (2 * (4 ^ (d + 1) * R + |t|))), ?_⟩
    rintro v s x' hv hs hs0 ⟨sum, -, he⟩ j
    exact flProjSimplex_bounded hr hu hR hv he.symm j
  | _ => exact hp.elim

/-- Functions of a run on a loss and penalties of the library and a dense or sparse matrix: `f_grad = f.f_grad`, `prox_1 = pen1.prox`, `L = A`. -/
structure PdsLib (rd fexp flog1p : ℝ → ℝ) (f : LossObj n d) (pen1 : PenObj d) (A : Fin p → Fin d → ℝ) (P : PdsArgs ℝ d p) : Prop where
  fg : ∀ k i x, f.FlValue rd fexp flog1p x (P.fg k i x).1
  prox1 : ∀ k i v s, pen1.FlProxE rd v s (P.prox1 k i v s)
  rmatvec : ∀ k i y j, FlRow rd (fun a => A a j) y (P.rmatvec k i y j)
  dot : ∀ k i a b, FlDot rd (List.ofFn fun j => (a j, b j)) (P.dot k i a b)

theorem abs_sum_le_card {m : ℕ} {a y : Fin m → ℝ} {R Q : ℝ} (ha : ∀ i, |a i| ≤ R) (hy : ∀ i, |y i| ≤ Q) (hR : 0 ≤ R) : ∑ i, |a i * y i| ≤ m * (R * Q) := by
  refine (Finset.sum_le_sum fun i _ => ?_).trans (b := ∑ _i : Fin m, R * Q) ?_
  · rw [abs_mul]; exact mul_le_mul (ha i) (hy i) (abs_nonneg _) hR
  · simp

theorem pdsBounded_library (hn : 0 < n) (hd : 0 < d) (f : LossObj n d) (hf : f.Good) (pen1 : PenObj d) (hpen : pen1.FlGoodE) (A : Fin p → Fin d → ℝ) (fexp flog1p : ℝ → ℝ) {w : ℝ}
    (hr : Rounding rd u 0) (huw : u ≤ w) (hwl : ∀ g, f = .log g → 2⁻¹ ^ 53 ≤ w) (hexp : ∀ t ≤ 18, 0 ≤ fexp t ∧ |fexp t - Real.exp t| ≤ w * Real.exp t)
    (hlog : ∀ s, 0 ≤ s → |flog1p s - Real.log (1 + s)| ≤ w * Real.log (1 + s)) (hnw : 4 * n * w ≤ 1) (hdw : 4 * d * w ≤ 1) (hpw : 4 * p * w ≤ 1) (hw : w ≤ 1 / 1000) {P : PdsArgs ℝ d p}
    (hP : PdsLib rd fexp flog1p f pen1 A P) : PdsBounded P := by
  obtain ⟨K, hK, hval⟩ := f.value_error hn hf
  obtain ⟨sv, hsv⟩ := largestSingular_exists hd f.mat
  obtain ⟨-, -, hq, -, -⟩ := C92_loss f hf hsv
  have hw0 := hr.u_nonneg.trans huw
  have hdot : ∀ {m : ℕ}, 4 * (m : ℝ) * w ≤ 1 → ∀ {a y : Fin m → ℝ} {R Q s : ℝ}, (∀ i, |a i| ≤ R) → (∀ i, |y i| ≤ Q) → 0 ≤ R → |s - ∑ i, a i * y i| ≤ 4 * m * (u * (∑ i, |a i * y i|) + 0) →
      |s| ≤ 2 * (m * (R * Q)) := by
    intro m hm a y R Q s ha hy hR hs
    have h1 := abs_sum_le_card ha hy hR
    have h2 := (Finset.abs_sum_le_sum_abs (fun i => a i * y i) Finset.univ).trans h1
    have h3 : 4 * m * (u * (∑ i, |a i * y i|) + 0) ≤ ∑ i, |a i * y i| := by
      have h0 : 0 ≤ ∑ i, |a i * y i| := Finset.sum_nonneg fun _ _ => abs_nonneg _
      have h4 : 4 * (m : ℝ) * u ≤ 1 := (mul_le_mul_of_nonneg_left huw (by positivity)).trans hm
      have := mul_le_mul_of_nonneg_right h4 h0
      linarith
    have h5 := abs_sub_abs_le_abs_sub s (∑ i, a i * y i)
    linarith
  refine ⟨fun R => ?_, fun R s0 => ?_, fun R => ?_, fun R => ?_⟩
  · obtain ⟨N, hN⟩ : ∃ N, N = d * |R| := ⟨_, rfl⟩
    refine ⟨f.fn 0 + ‖f.gradE 0‖ * N + |f.lipschitz sv| / 2 * N ^ 2 + K * w * (1 + N) ^ 2, fun k i x hx => ?_⟩
    have hx1 : ‖(WithLp.toLp 2 x : EuclideanSpace ℝ (Fin d))‖ ≤ N := by
      rw [hN]
      exact norm_le_of_coord _ (fun j => (hx j).trans (le_abs_self R))
    have hx2 : norm2 x ≤ N := by rw [← toLp_norm]; exact hx1
    have h1 := (abs_le.mp (hval rd fexp flog1p u w hr huw hwl hnw hdw (by linarith) hexp hlog x _ (hP.fg k i x))).2
    have h2 := hq 0 (WithLp.toLp 2 x)
    rw [sub_zero] at h2
    have h3 := (real_inner_le_norm (f.gradE 0) (WithLp.toLp 2 x)).trans (mul_le_mul_of_nonneg_left hx1 (norm_nonneg _))
    have h4 : f.lipschitz sv / 2 * ‖(WithLp.toLp 2 x : EuclideanSpace ℝ (Fin d))‖ ^ 2 ≤ |f.lipschitz sv| / 2 * N ^ 2 := by
      have h5 : ‖(WithLp.toLp 2 x : EuclideanSpace ℝ (Fin d))‖ ^ 2 ≤ N ^ 2 := pow_le_pow_left₀ (norm_nonneg _) hx1 2
      have h6 := mul_le_mul_of_nonneg_right (le_abs_self (f.lipschitz sv)) (sq_nonneg ‖(WithLp.toLp 2 x : EuclideanSpace ℝ (Fin d))‖)
      have h7 := mul_le_mul_of_nonneg_left h5 (abs_nonneg (f.lipschitz sv))
      linarith
    have h8 : K * w * (1 + norm2 x) ^ 2 ≤ K * w * (1 + N) ^ 2 :=
      mul_le_mul_of_nonneg_left (pow_le_pow_left₀ (by linarith [norm2_nonneg' x]) (by linarith) 2) (by positivity)
    linarith
  · obtain ⟨B, hB⟩ := pen1.flProxE_bounded hr (huw.trans hw) hpen R s0
    exact ⟨B, fun k i v s x' hv hs hs0 h => hB v s x' hv hs hs0 (h ▸ hP.prox1 k i v s)⟩
  · obtain ⟨Q, hQ0, hQ⟩ : ∃ Q, 0 ≤ Q ∧ ∀ a j, |A a j| ≤ Q :=
      ⟨∑ a, ∑ j, |A a j|, Finset.sum_nonneg fun _ _ => Finset.sum_nonneg fun _ _ => abs_nonneg _, fun a j =>
        (Finset.single_le_sum (f := fun j => |A a j|) (fun _ _ => abs_nonneg _) (Finset.mem_univ j)).trans
          (Finset.single_le_sum (f := fun a => ∑ j, |A a j|) (fun _ _ => Finset.sum_nonneg fun _ _ => abs_nonneg _) (Finset.mem_univ a))⟩
    refine ⟨2 * (p * (Q * R)), fun k i y hy j => ?_⟩
    have hm : 4 * (p : ℝ) * u ≤ 1 := (mul_le_mul_of_nonneg_left huw (by positivity)).trans hpw
    exact hdot hpw (fun a => hQ a j) hy hQ0 (flRow_error hr hm (hP.rmatvec k i y j))
  · refine ⟨2 * (d * (R * R)), fun k i a b ha hb => ?_⟩
    have hm : 4 * (d : ℝ) * u ≤ 1 := (mul_le_mul_of_nonneg_left huw (by positivity)).trans hdw
    have hR : 0 ≤ R := (abs_nonneg _).trans (ha ⟨0, hd⟩)
    exact hdot hdw ha hb hR ((hP.dot k i a b).error_vec hr hm)

/-- **C133 (partial), for the library.** `minimize_primal_dual(f.f_grad, x0, pen1.prox, prox_2, L=A)` with its default line search returns or raises in rounded arithmetic of precision `w`, for every
loss of the library, every penalty or constraint on vectors but `FusedLasso` as `prox_1`, any `prox_2`, every dense or sparse matrix `A`, every starting point, number of iterations and tolerance and
all positive step sizes. -/
theorem C133_library_partial (hn : 0 < n) (hd : 0 < d) (f : LossObj n d) (hf : f.Good) (pen1 : PenObj d) (hpen : pen1.FlGoodE) (A : Fin p → Fin d → ℝ) (fexp flog1p : ℝ → ℝ) {w : ℝ}
    (hr : Rounding rd u 0) (huw : u ≤ w) (hwl : ∀ g, f = .log g → 2⁻¹ ^ 53 ≤ w) (hexp : ∀ t ≤ 18, 0 ≤ fexp t ∧ |fexp t - Real.exp t| ≤ w * Real.exp t)
    (hlog : ∀ s, 0 ≤ s → |flog1p s - Real.log (1 + s)| ≤ w * Real.log (1 + s)) (hnw : 4 * n * w ≤ 1) (hdw : 4 * d * w ≤ 1) (hpw : 4 * p * w ≤ 1) (hw : w ≤ 1 / 1000) {P : PdsArgs ℝ d p}
    (hP : PdsLib rd fexp flog1p f pen1 A P) (hs : 0 < P.stepSize) (hs2 : ∀ t, P.stepSize2 = some t → 0 < t) : ∃ out fuel0, ∀ fuel, fuel0 ≤ fuel → pdsRun (flReal rd) P fuel = some out :=
  C133_terminates_partial hr (huw.trans hw) (pdsBounded_library hn hd f hf pen1 hpen A fexp flog1p hr huw hwl hexp hlog hnw hdw hpw hw hP) hs hs2

/-! ### Numbers which are not finite -/

theorem Ieee.add_nan (rd : ℝ → ℝ) (Om : ℝ) (a : Ieee) : Ieee.add rd Om a .nan = .nan := by cases a <;> rfl

theorem Ieee.nan_add (rd : ℝ → ℝ) (Om : ℝ) (a : Ieee) : Ieee.add rd Om .nan a = .nan := by cases a <;> rfl

theorem Ieee.mul_nan (rd : ℝ → ℝ) (Om : ℝ) (a : Ieee) : Ieee.mul rd Om a .nan = .nan := by cases a <;> rfl

theorem Ieee.not_le_nan (a : Ieee) : ¬ Ieee.le a .nan := by cases a <;> exact id

theorem Ieee.not_nan_le (a : Ieee) : ¬ Ieee.le .nan a := by cases a <;> exact id

theorem OpsSum.nan {Om : ℝ} {l : List Ieee} {a : Ieee} (h : OpsSum (ieee rd Om) l a) (hl : .nan ∈ l) : a = .nan := by
  induction h with
  | single x => exact (List.mem_singleton.mp hl).symm
  | add h1 h2 ih1 ih2 =>
    rcases List.mem_append.mp hl with h | h
    · rw [ih1 h]; rfl
    · rw [ih2 h]; show Ieee.add rd Om _ .nan = _; rw [Ieee.add_nan]
  | perm hp _ ih => exact ih (hp.mem_iff.mpr hl)

theorem OpsNorm.nan {Om : ℝ} {m : ℕ} {v : Fin m → Ieee} {s : Ieee} (h : OpsNorm (ieee rd Om) v s) {i : Fin m} (hi : v i = .nan) : s = .nan := by
  obtain ⟨q, hq, rfl⟩ := h
  have : q = .nan := hq.nan ((List.mem_ofFn' _ _).mpr ⟨i, by simp only [hi]; rfl⟩)
  rw [this]
  rfl

theorem OpsMatvec.nan {Om : ℝ} {m k : ℕ} {A : Fin k → Fin m → Ieee} {v : Fin m → Ieee} {r : Fin k → Ieee} (h : OpsMatvec (ieee rd Om) A v r) {j : Fin m} (hj : v j = .nan) (i : Fin k) : r i = .nan :=
  (h i).nan ((List.mem_ofFn' _ _).mpr ⟨j, by simp only [hj]; exact Ieee.mul_nan rd Om _⟩)

/-- A trial that is rejected. -/
theorem pdsTrials_reject {O : FlOps α} {P : PdsArgs α d p} {k : ℕ} {st : PdsState α d p} {yNext : Fin p → α} {i : ℕ} {t : α} {x' : Fin d → α}
    (h1 : P.prox1 k i (pdsArg O (O.mul (pdsRatio O P) t) st.x (P.rmatvec k i (pdsBar O (O.div t st.tau) yNext st.y)) st.grad) (O.mul (pdsRatio O P) t) = .ok x')
    (h2 : ¬ O.le (P.norm k i (fun a => O.sub (P.matvecT k i x' a) (P.matvecT k i st.x a))) (O.lit (1 / 10 ^ 10)))
    (h3 : ¬ pdsTest O (O.mul (pdsRatio O P) t) t (P.norm k i (fun a => O.sub (P.matvecT k i x' a) (P.matvecT k i st.x a)))
      (O.sub (O.sub (P.fg k i x').1 st.fk) (P.dot k i st.grad (fun j => O.sub (x' j) (st.x j))))) (fuel : ℕ) :
    pdsTrials O P k st yNext (fuel + 1) i t = pdsTrials O P k st yNext fuel (i + 1) (O.mul t (O.lit (9 / 10))) := by
  rw [pdsTrials]
  simp only
  rw [h1]
  simp only
  rw [if_neg h2, if_neg h3]

/-- A search in which all increments are nan does not end. -/
theorem pdsTrials_nan {Om : ℝ} (P : PdsArgs Ieee d p) (k : ℕ) (st : PdsState Ieee d p) (yNext : Fin p → Ieee)
    (h : ∀ i t, ∃ x', P.prox1 k i (pdsArg (ieee rd Om) ((ieee rd Om).mul (pdsRatio (ieee rd Om) P) t) st.x (P.rmatvec k i (pdsBar (ieee rd Om) ((ieee rd Om).div t st.tau) yNext st.y)) st.grad)
      ((ieee rd Om).mul (pdsRatio (ieee rd Om) P) t) = .ok x' ∧ P.norm k i (fun a => (ieee rd Om).sub (P.matvecT k i x' a) (P.matvecT k i st.x a)) = .nan) :
    ∀ fuel i t, pdsTrials (ieee rd Om) P k st yNext fuel i t = none := by
  intro fuel
  induction fuel with
  | zero => intro i t; rfl
  | succ fuel ih =>
    intro i t
    obtain ⟨x', h1, h2⟩ := h i t
    rw [pdsTrials_reject h1 (by rw [h2]; exact Ieee.not_nan_le ((ieee rd Om).lit (1 / 10 ^ 10))) (by rw [h2]; exact fun h => Ieee.not_le_nan _ h)]
    exact ih _ _

/-- A run whose first search does not end. -/
theorem pdsRun_none {O : FlOps α} {P : PdsArgs α d p} {fuel : ℕ} (hls : 0 < P.lsIter) (hmax : 0 < P.maxIter) (h2 : ∀ k v s, ∃ q, P.prox2 k v s = .ok q)
    (h : ∀ yNext, pdsTrials O P 0 (pdsInit O P) yNext fuel 0 (pdsFirst O (pdsInit O P)) = none) : pdsRun O P fuel = none := by
  unfold pdsRun
  rw [if_neg (not_le.mpr hls)]
  obtain ⟨m, hm⟩ : ∃ m, P.maxIter = m + 1 := ⟨P.maxIter - 1, by omega⟩
  rw [hm]
  simp only
  rw [pdsLoop]
  have : pdsNext O P fuel 0 (pdsInit O P) = none := by
    unfold pdsNext
    simp only
    obtain ⟨q, hq⟩ := h2 0 (fun a => O.div (pdsPoint O P 0 (pdsInit O P) a) (pdsInit O P).tau) (O.div (O.lit 1) (pdsInit O P).tau)
    rw [hq]
    simp only
    rw [h]
  rw [this]

/-- **C133 (nan in the starting point).** In IEEE arithmetic a nan in `x0` makes the first line search of `minimize_primal_dual` run forever, whatever the objective, the proximal operators (as long as
they return), the tolerance and `max_iter`, for every matrix with at least one row whose entries are stored. -/
theorem C133_nan_start {Om : ℝ} (P : PdsArgs Ieee d p) (hp : 0 < p) (A : Fin p → Fin d → Ieee) (hmv : ∀ k i x, OpsMatvec (ieee rd Om) A x (P.matvecT k i x)) (hnorm : ∀ k i v, OpsNorm (ieee rd Om) v (P.norm k i v))
    (h1 : ∀ k i v s, ∃ x', P.prox1 k i v s = .ok x') (h2 : ∀ k v s, ∃ q, P.prox2 k v s = .ok q) (hls : 0 < P.lsIter) (hmax : 0 < P.maxIter) {j : Fin d} (hj : P.x0 j = .nan) (fuel : ℕ) :
    pdsRun (ieee rd Om) P fuel = none := by
  refine pdsRun_none hls hmax h2 (fun yNext => pdsTrials_nan P 0 _ yNext (fun i t => ?_) _ _ _)
  obtain ⟨x', hx'⟩ := h1 0 i _ _
  refine ⟨x', hx', (hnorm 0 i _).nan (i := ⟨0, hp⟩) ?_⟩
  have : P.matvecT 0 i (pdsInit (ieee rd Om) P).x ⟨0, hp⟩ = .nan := (hmv 0 i _).nan (j := j) hj _
  rw [this]
  exact Ieee.add_nan rd Om _

/-- **C133 (nan in the gradient).** The same for a nan in the gradient at `x0`, without `prox_1`. -/
theorem C133_nan_gradient {Om : ℝ} (P : PdsArgs Ieee d p) (hp : 0 < p) (A : Fin p → Fin d → Ieee) (hmv : ∀ k i x, OpsMatvec (ieee rd Om) A x (P.matvecT k i x)) (hnorm : ∀ k i v, OpsNorm (ieee rd Om) v (P.norm k i v))
    (h1 : ∀ k i v s, P.prox1 k i v s = .ok v) (h2 : ∀ k v s, ∃ q, P.prox2 k v s = .ok q) (hls : 0 < P.lsIter) (hmax : 0 < P.maxIter) {j : Fin d} (hj : (P.start P.x0).2 j = .nan) (fuel : ℕ) :
    pdsRun (ieee rd Om) P fuel = none := by
  refine pdsRun_none hls hmax h2 (fun yNext => pdsTrials_nan P 0 _ yNext (fun i t => ?_) _ _ _)
  refine ⟨_, h1 0 i _ _, (hnorm 0 i _).nan (i := ⟨0, hp⟩) ?_⟩
  have hg : (pdsInit (ieee rd Om) P).grad j = .nan := hj
  have e : ∀ sigma my, pdsArg (ieee rd Om) sigma (pdsInit (ieee rd Om) P).x my (pdsInit (ieee rd Om) P).grad j = .nan := by
    intro sigma my
    unfold pdsArg
    rw [hg]
    show Ieee.add rd Om _ (Ieee.mul rd Om _ (Ieee.add rd Om _ .nan)).neg = .nan
    rw [Ieee.add_nan, Ieee.mul_nan]
    exact Ieee.add_nan rd Om _
  have := (hmv 0 i _).nan (e ((ieee rd Om).mul (pdsRatio (ieee rd Om) P) t) (P.rmatvec 0 i (pdsBar (ieee rd Om) ((ieee rd Om).div t (pdsInit (ieee rd Om) P).tau) yNext (pdsInit (ieee rd Om) P).y))) ⟨0, hp⟩
  show Ieee.add rd Om (P.matvecT 0 i _ ⟨0, hp⟩) _ = .nan
  rw [this]
  exact Ieee.nan_add rd Om _

/-- `minimize_primal_dual(f_grad, [x0])` with default arguments, for `f(x) = x ** 2 / 2` in dimension 1. -/
noncomputable def pdsNanArgs (rd : ℝ → ℝ) (Om : ℝ) (x0 : Ieee) : PdsArgs Ieee 1 1 :=
  { start := fun x => (Ieee.div rd Om (Ieee.mul rd Om (x 0) (x 0)) (Ieee.round rd Om 2), x)
    fg := fun _ _ x => (Ieee.div rd Om (Ieee.mul rd Om (x 0) (x 0)) (Ieee.round rd Om 2), x)
    prox1 := fun _ _ v _ => .ok v, prox2 := fun _ v _ => .ok v
    matvec := fun _ x _ => Ieee.mul rd Om (Ieee.round rd Om 1) (x 0), matvecT := fun _ _ x _ => Ieee.mul rd Om (Ieee.round rd Om 1) (x 0)
    rmatvec := fun _ _ y _ => Ieee.mul rd Om (Ieee.round rd Om 1) (y 0)
    norm := fun _ _ v => Ieee.sqrt rd Om (Ieee.mul rd Om (v 0) (v 0)), dot := fun _ _ a b => Ieee.mul rd Om (a 0) (b 0)
    normX := fun _ v => Ieee.sqrt rd Om (Ieee.mul rd Om (v 0) (v 0)), normY := fun _ v => Ieee.sqrt rd Om (Ieee.mul rd Om (v 0) (v 0))
    stepSize := Ieee.round rd Om 1, stepSize2 := none, x0 := fun _ => x0, tol := Ieee.round rd Om (1 / 10 ^ 12), maxIter := 1000, lsIter := 20 }

/-- **C133 (refuted).** It is not true that `minimize_primal_dual` always returns or raises: with default arguments, `f(x) = x ** 2 / 2` and `x0 = [nan]` it never does. -/
theorem C133_refuted (rd : ℝ → ℝ) (Om : ℝ) (fuel : ℕ) : pdsRun (ieee rd Om) (pdsNanArgs rd Om .nan) fuel = none := by
  refine C133_nan_start _ one_pos (fun _ _ => Ieee.round rd Om 1) (fun k i x a => ?_) (fun k i v => ⟨_, ?_, rfl⟩) (fun _ _ v _ => ⟨v, rfl⟩) (fun _ v _ => ⟨v, rfl⟩) (by show (0 : ℤ) < 20; norm_num)
    (by show 0 < 1000; norm_num) (j := 0) rfl fuel
  · rw [List.ofFn_succ, List.ofFn_zero]; exact .single _
  · rw [List.ofFn_succ, List.ofFn_zero]; exact .single _

/-! ### `max_iter_ls` -/

/-- `f(x) = c x² / 2`, `x0 = [1]`, default step sizes, exact arithmetic, `max_iter_ls=1`. -/
noncomputable def pdsSteep (c : ℝ) : PdsArgs ℝ 1 1 :=
  { start := fun x => (c / 2 * x 0 ^ 2, fun _ => c * x 0)
    fg := fun _ _ x => (c / 2 * x 0 ^ 2, fun _ => c * x 0)
    prox1 := fun _ _ v _ => .ok v, prox2 := fun _ v _ => .ok v
    matvec := fun _ x => x, matvecT := fun _ _ x => x, rmatvec := fun _ _ y => y
    norm := fun _ _ v => |v 0|, dot := fun _ _ a b => a 0 * b 0
    normX := fun _ v => |v 0|, normY := fun _ v => |v 0|
    stepSize := 1, stepSize2 := none, x0 := fun _ => 1, tol := 1 / 10 ^ 12, maxIter := 1000, lsIter := 1 }

/-- **C133 (`max_iter_ls`).** The argument `max_iter_ls` does not limit the number of trials: for every `m` there is a smooth convex problem on which the first search with `max_iter_ls=1` needs more
than `m` trials, even in exact arithmetic. -/
theorem C133_limit_ignored (m : ℕ) : pdsRun (flReal id) (pdsSteep (100 * (10 / 9) ^ m)) m = none := by
  obtain ⟨c, hc⟩ : ∃ c : ℝ, c = 100 * (10 / 9) ^ m := ⟨_, rfl⟩
  rw [← hc]
  have hs2 : (14 : ℝ) / 10 ≤ Real.sqrt 2 ∧ Real.sqrt 2 ≤ 15 / 10 := by
    constructor
    · exact Real.le_sqrt_of_sq_le (by norm_num)
    · rw [Real.sqrt_le_left (by norm_num)]; norm_num
  have hfirst : 6 / 10 ≤ pdsFirst (flReal id) (pdsInit (flReal id) (pdsSteep c)) ∧ pdsFirst (flReal id) (pdsInit (flReal id) (pdsSteep c)) ≤ 7 / 10 := by
    have e : pdsFirst (flReal id) (pdsInit (flReal id) (pdsSteep c)) = 1 / 2 * 1 * (1 + Real.sqrt (1 + 1)) / 2 := rfl
    rw [e, show (1 : ℝ) + 1 = 2 by norm_num]
    constructor <;> linarith
  have key : ∀ fuel i t, i + fuel ≤ m → 6 / 10 * (9 / 10) ^ i ≤ t → t ≤ 7 / 10 → pdsTrials (flReal id) (pdsSteep c) 0 (pdsInit (flReal id) (pdsSteep c)) (fun _ => 0) fuel i t = none := by
    intro fuel
    induction fuel with
    | zero => intro i t _ _ _; rfl
    | succ fuel ih =>
      intro i t hi ht1 ht2
      have hct : 60 ≤ c * t := by
        have h1 : (9 / 10 : ℝ) ^ m ≤ (9 / 10) ^ i := pow_le_pow_of_le_one (by norm_num) (by norm_num) (by omega)
        have h2 : (10 / 9 : ℝ) ^ m * (9 / 10) ^ m = 1 := by rw [← mul_pow]; norm_num
        have hcp : 0 ≤ c := by rw [hc]; positivity
        have h3 := mul_le_mul_of_nonneg_left ((mul_le_mul_of_nonneg_left h1 (by norm_num : (0 : ℝ) ≤ 6 / 10)).trans ht1) hcp
        have h4 : c * (6 / 10 * (9 / 10) ^ m) = 60 := by
          rw [hc]
          linear_combination 60 * h2
        linarith
      have ht0 : 0 ≤ t := le_trans (by positivity) ht1
      obtain ⟨D, hD⟩ : ∃ D, D = t / 2 * (c - 2 * t) := ⟨_, rfl⟩
      have hD1 : 1 < D := by
        have : t * t ≤ 7 / 10 * (7 / 10) := mul_le_mul ht2 ht2 ht0 (by norm_num)
        rw [hD]; linarith
      have hx : ∀ j, pdsArg (flReal id) ((flReal id).mul (pdsRatio (flReal id) (pdsSteep c)) t) (pdsInit (flReal id) (pdsSteep c)).x
          ((pdsSteep c).rmatvec 0 i (pdsBar (flReal id) ((flReal id).div t (pdsInit (flReal id) (pdsSteep c)).tau) (fun _ => 0) (pdsInit (flReal id) (pdsSteep c)).y)) (pdsInit (flReal id) (pdsSteep c)).grad j = 1 - D := by
        intro j
        show (1 : ℝ) - 1 / 2 * t * (0 + t / (1 / 2 * 1) * (0 - 1) + c * 1) = 1 - D
        rw [hD]
        ring
      rw [pdsTrials_reject (x' := fun _ => 1 - D) (congrArg Except.ok (funext hx))]
      · exact ih (i + 1) _ (by omega) (by
          show _ ≤ t * (9 / 10)
          rw [pow_succ]; linarith) (by show t * (9 / 10) ≤ _; linarith)
      · show ¬ (|1 - D - 1| ≤ 1 / 10 ^ 10)
        rw [show (1 : ℝ) - D - 1 = -D by ring, abs_neg, abs_of_pos (by linarith : (0 : ℝ) < D)]
        norm_num
        linarith
      · show ¬ ((1 / 2 * t * t * (|1 - D - 1| * |1 - D - 1|) + 2 * (1 / 2 * t) * (c / 2 * (1 - D) ^ 2 - c / 2 * 1 ^ 2 - c * 1 * (1 - D - 1))) / (1 / 2) ≤ |1 - D - 1| * |1 - D - 1|)
        rw [show (1 : ℝ) - D - 1 = -D by ring, abs_neg, abs_of_pos (by linarith : (0 : ℝ) < D), not_le, lt_div_iff₀ (by norm_num)]
        have h1 : 0 < D * D := by positivity
        have h2 := mul_le_mul_of_nonneg_right hct h1.le
        have h3 : 0 ≤ t * t * (D * D) := by positivity
        linarith
  unfold pdsRun
  rw [if_neg (by show ¬ ((1 : ℤ) ≤ 0); norm_num)]
  show pdsLoop (flReal id) (pdsSteep c) m 999 0 _ = none
  rw [pdsLoop]
  have : pdsNext (flReal id) (pdsSteep c) m 0 (pdsInit (flReal id) (pdsSteep c)) = none := by
    unfold pdsNext
    simp only
    have hq : (pdsSteep c).prox2 0 (fun a => (flReal id).div (pdsPoint (flReal id) (pdsSteep c) 0 (pdsInit (flReal id) (pdsSteep c)) a) (pdsInit (flReal id) (pdsSteep c)).tau)
        ((flReal id).div ((flReal id).lit 1) (pdsInit (flReal id) (pdsSteep c)).tau) = .ok _ := rfl
    rw [hq]
    simp only
    have e : (fun a : Fin 1 => (flReal id).sub (pdsPoint (flReal id) (pdsSteep c) 0 (pdsInit (flReal id) (pdsSteep c)) a) ((flReal id).mul (pdsInit (flReal id) (pdsSteep c)).tau
        ((flReal id).div (pdsPoint (flReal id) (pdsSteep c) 0 (pdsInit (flReal id) (pdsSteep c)) a) (pdsInit (flReal id) (pdsSteep c)).tau))) = fun _ => 0 := by
      funext a
      show (1 : ℝ) + 1 / 2 * 1 * 1 - 1 / 2 * 1 * ((1 + 1 / 2 * 1 * 1) / (1 / 2 * 1)) = 0
      norm_num
    rw [e, key m 0 _ (by omega) (by simpa using hfirst.1) hfirst.2]
  rw [this]

/-! ### Cases meeting the hypotheses -/

/-- Doubles with default arguments: any loss, penalty, matrix and starting point with at most `2 ^ 50` samples, features and rows. -/
example (hn : 0 < n) (hd : 0 < d) (hn' : n ≤ 2 ^ 50) (hd' : d ≤ 2 ^ 50) (hp' : p ≤ 2 ^ 50) (f : LossObj n d) (hf : f.Good) (pen1 : PenObj d) (hpen : pen1.FlGoodE) (A : Fin p → Fin d → ℝ)
    (prox2 : ℕ → (Fin p → ℝ) → ℝ → Except PyErr (Fin p → ℝ)) (x0 : Fin d → ℝ) :
    ∃ P : PdsArgs ℝ d p, PdsLib (flBits 52) (fun t => flBits 52 (Real.exp t)) (fun s => flBits 52 (Real.log (1 + s))) f pen1 A P ∧ P.x0 = x0 ∧ P.prox2 = prox2 ∧ P.stepSize = 1 ∧ P.stepSize2 = none ∧
      P.maxIter = 1000 ∧ ∃ out fuel0, ∀ fuel, fuel0 ≤ fuel → pdsRun (flReal (flBits 52)) P fuel = some out := by
  have hr := flBits_rounding (p := 52) (eta := 0) le_rfl
  have cast : ∀ m : ℕ, m ≤ 2 ^ 50 → 4 * (m : ℝ) * 2⁻¹ ^ 53 ≤ 1 := by
    intro m hm
    have : (m : ℝ) ≤ 2 ^ 50 := by exact_mod_cast hm
    have h2 : (2 : ℝ) ^ 50 * (4 * 2⁻¹ ^ 53) ≤ 1 := by norm_num
    have h3 := mul_le_mul_of_nonneg_right this (show (0 : ℝ) ≤ 4 * 2⁻¹ ^ 53 by positivity)
    linarith
  choose gr hgr using fun x => f.exists_flGrad (flBits 52) (fun t => flBits 52 (Real.exp t)) hn hd x
  choose va hva using fun x => f.exists_flValue (flBits 52) (fun t => flBits 52 (Real.exp t)) (fun s => flBits 52 (Real.log (1 + s))) hn hd x
  choose pr hpr using fun v s => pen1.exists_flProxE (flBits 52) hd hpen v s
  choose dt hdt using fun a b : Fin d → ℝ => exists_flDot_vec (flBits 52) hd fun j => (a j, b j)
  choose mt hmt using fun (y : Fin p → ℝ) (j : Fin d) => exists_flRow (flBits 52) (fun a => A a j) y
  choose mv hmv using fun (x : Fin d → ℝ) (a : Fin p) => exists_flRow (flBits 52) (A a) x
  obtain ⟨P, hP⟩ : ∃ P : PdsArgs ℝ d p, P = ⟨fun x => (va x, gr x), fun _ _ x => (va x, gr x), fun _ _ => pr, prox2, fun _ => mv, fun _ _ => mv, fun _ _ => mt, fun _ _ v => norm2 v, fun _ _ => dt,
    fun _ v => norm2 v, fun _ v => norm2 v, 1, none, x0, 1 / 10 ^ 12, 1000, 20⟩ := ⟨_, rfl⟩
  have hlib : PdsLib (flBits 52) (fun t => flBits 52 (Real.exp t)) (fun s => flBits 52 (Real.log (1 + s))) f pen1 A P := by
    rw [hP]
    exact ⟨fun _ _ x => hva x, fun _ _ => hpr, fun _ _ y j => hmt y j, fun _ _ => hdt⟩
  refine ⟨P, hlib, by rw [hP], by rw [hP], by rw [hP], by rw [hP], by rw [hP], ?_⟩
  refine C133_library_partial hn hd f hf pen1 hpen A _ _ (w := 2⁻¹ ^ 53) hr le_rfl (fun _ _ => le_rfl) (fun t _ => ⟨hr.nonneg (Real.exp_pos t).le, ?_⟩) (fun s hs => ?_) (cast n hn') (cast d hd') (cast p hp')
    (by norm_num) hlib (by rw [hP]; exact one_pos) (fun t ht => by rw [hP] at ht; exact absurd ht (by simp))
  · have := rel_err hr le_rfl (Real.exp t)
    rwa [abs_of_pos (Real.exp_pos t)] at this
  · have := rel_err hr le_rfl (Real.log (1 + s))
    rwa [abs_of_nonneg (Real.log_nonneg (by linarith))] at this

/-- The runs of `C133_limit_ignored` end. -/
example (c : ℝ) : ∃ out fuel0, ∀ fuel, fuel0 ≤ fuel → pdsRun (flReal id) (pdsSteep c) fuel = some out := by
  have hr : Rounding id 0 0 := ⟨monotone_id, fun _ => rfl, fun _ => rfl, fun x => by simp, le_rfl, le_rfl⟩
  refine C133_terminates_partial hr (by norm_num) ⟨fun R => ⟨|c| / 2 * R ^ 2, fun k i x hx => ?_⟩, fun R s0 => ⟨R, fun k i v s x' hv _ _ h => ?_⟩, fun R => ⟨R, fun k i y hy => hy⟩,
    fun R => ⟨R * R, fun k i a b ha hb => ?_⟩⟩ one_pos (fun t ht => absurd ht (by simp [pdsSteep]))
  · show c / 2 * x 0 ^ 2 ≤ _
    have h1 : x 0 ^ 2 ≤ R ^ 2 := by rw [← sq_abs (x 0)]; exact pow_le_pow_left₀ (abs_nonneg _) (hx 0) 2
    have h2 := mul_le_mul_of_nonneg_right (le_abs_self c) (sq_nonneg (x 0))
    have h3 := mul_le_mul_of_nonneg_left h1 (abs_nonneg c)
    linarith
  · obtain rfl := Except.ok.inj h
    exact hv
  · show |a 0 * b 0| ≤ R * R
    rw [abs_mul]
    exact mul_le_mul (ha 0) (hb 0) (abs_nonneg _) ((abs_nonneg _).trans (ha 0))

/-- A finite starting point at which `f_grad` returns nan. -/
example (rd : ℝ → ℝ) (Om : ℝ) (fuel : ℕ) : pdsRun (ieee rd Om) { pdsNanArgs rd Om (.fin 1) with start := fun _ => (.inf false, fun _ => .nan) } fuel = none := by
  refine C133_nan_gradient _ one_pos (fun _ _ => Ieee.round rd Om 1) (fun k i x a => ?_) (fun k i v => ⟨_, ?_, rfl⟩) (fun _ _ v _ => rfl) (fun _ v _ => ⟨v, rfl⟩) (by show (0 : ℤ) < 20; norm_num)
    (by show 0 < 1000; norm_num) (j := 0) rfl fuel
  · rw [List.ofFn_succ, List.ofFn_zero]; exact .single _
  · rw [List.ofFn_succ, List.ofFn_zero]; exact .single _

/-- `C133_search` with underflow: 3000 trials are enough for steps and values up to `10 ^ 80`, with the underflow threshold of doubles. -/
example (hr : Rounding rd u (2⁻¹ ^ 1075)) (hu : u ≤ 1 / 1000) (P : PdsArgs ℝ d p) (k : ℕ) (st : PdsState ℝ d p) (yNext : Fin p → ℝ) {T : ℝ} (hT : 0 ≤ T) (hT' : T ≤ 10 ^ 10)
    (hratio : pdsRatio (flReal rd) P = 1 / 2)
    (hS : ∀ i x', P.prox1 k i (pdsCand rd P k st yNext T i) (pdsSigmas rd P T i) = .ok x' → pdsSlack rd P k st i x' ≤ 10 ^ 80) : pdsTrials (flReal rd) P k st yNext 3001 0 T ≠ none := by
  obtain ⟨e, he⟩ : ∃ e : ℝ, e = 2⁻¹ ^ 1075 := ⟨_, rfl⟩
  rw [← he] at hr
  have h1 : (91 / 100 : ℝ) ^ 3000 ≤ 1 / 10 ^ 120 := by
    rw [show 3000 = 250 * 12 from rfl, pow_mul]
    exact (pow_le_pow_left₀ (by positivity) (show (91 / 100 : ℝ) ^ 250 ≤ 1 / 10 ^ 10 by norm_num) 12).trans (by norm_num)
  have h2 : e ≤ 1 / 10 ^ 120 := by
    rw [he, show 1075 = 215 * 5 from rfl, pow_mul]
    exact (pow_le_pow_left₀ (by positivity) (show (2⁻¹ : ℝ) ^ 215 ≤ 1 / 10 ^ 24 by norm_num) 5).trans (by norm_num)
  have h3 := hr.eta_nonneg
  refine C133_search hr hu (h2.trans (by norm_num)) P k st yNext (c := 1 / 10 ^ 105) (S := 10 ^ 80) hT (by rw [hratio]; norm_num) (by norm_num) hS 3000 ?_ ?_ ?_
  · have h4 := mul_le_mul hT' h1 (by positivity) (by norm_num)
    obtain ⟨q, hq⟩ : ∃ q : ℝ, q = (91 / 100) ^ 3000 := ⟨_, rfl⟩
    rw [← hq] at h4 ⊢
    norm_num at h4 h2 ⊢
    linarith
  · rw [hratio]
    have h4 := mul_le_mul_of_nonneg_right (show 2 * (1 / 2) * (1 / 10 ^ 105) + e ≤ 1 by norm_num at h2 ⊢; linarith) (show (0 : ℝ) ≤ 1 / 10 ^ 105 by norm_num)
    refine h4.trans (by norm_num)
  · rw [hratio]
    norm_num at h2 ⊢
    linarith

end Copt
