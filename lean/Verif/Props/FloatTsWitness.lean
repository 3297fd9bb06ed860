import Verif.Model.FloatTsSearch
import Verif.Props.FloatLineSearchWitness

/-! # `minimize_three_split` in double precision (C136): success far from the minimum -/

set_option linter.unusedSectionVars false

namespace Copt

open Spec

variable {d n : ℕ} {rd : ℝ → ℝ}

/-- Oracles of a run on a loss without penalties: `f_grad = f.f_grad`, `prox_1=None`, `prox_2=None`. -/
structure FlTosLoss (rd fexp flog1p : ℝ → ℝ) (f : LossObj n d) (P : FlTosArgs d) : Prop where
  init : ∀ i x, f.FlValue rd fexp flog1p x (P.init i x).1 ∧ f.FlGrad rd fexp x (P.init i x).2
  fg : ∀ i x, f.FlValue rd fexp flog1p x (P.fg i x).1 ∧ f.FlGrad rd fexp x (P.fg i x).2
  fval : ∀ k i x, f.FlValue rd fexp flog1p x (P.fval k i x)
  prox1 : ∀ k i v s, P.prox1 k i v s = .ok v
  prox2 : ∀ k v s, P.prox2 k v s = .ok v
  dot : ∀ k i a b, FlDot rd (List.ofFn fun j => (a j, b j)) (P.dot k i a b)
  norm : ∀ k i v, FlNorm rd v (P.norm k i v)

namespace LsWitness

variable (hr : Nearest 52 rd)

include hr

/-- Small steps do not move the point 1. -/
theorem stay {y : ℝ} (h0 : 0 ≤ y) (h1 : y < 1 / 2 ^ 53) : rd (1 + y) = 1 := by
  have h5 := hr.eq (x := 1 + y) (m := 2 ^ 52) (e := -52) (by norm_num) (by norm_num) (by rw [zpow_neg]; norm_num; linarith)
    (by rw [zpow_neg, abs_lt]; norm_num at h1 ⊢; constructor <;> linarith)
  rw [h5, zpow_neg]; norm_num

/-- Larger ones do. -/
theorem move {y : ℝ} (h1 : 1 / 2 ^ 53 < y) : 1 + 1 / 2 ^ 52 ≤ rd (1 + y) := by
  have hm := hr.monotone (show 1 + min y (1 / 2 ^ 52) ≤ 1 + y by linarith [min_le_left y (1 / 2 ^ 52)])
  refine le_trans ?_ hm
  have h2 : 1 / 2 ^ 53 < min y (1 / 2 ^ 52) := lt_min h1 (by norm_num)
  have h3 : min y (1 / 2 ^ 52) ≤ 1 / 2 ^ 52 := min_le_right _ _
  obtain ⟨t, ht⟩ : ∃ t, t = min y (1 / 2 ^ 52) := ⟨_, rfl⟩
  rw [← ht] at h2 h3 ⊢
  have h5 := hr.eq (x := 1 + t) (m := 2 ^ 52 + 1) (e := -52) (by norm_num) (by norm_num) (by rw [zpow_neg]; norm_num at h2 ⊢; linarith)
    (by rw [zpow_neg, abs_lt]; norm_num at h2 h3 ⊢; constructor <;> linarith)
  rw [h5, zpow_neg]; norm_num

theorem step_one {x g : Fin 1 → ℝ} (hx : x = fun _ => 1) (s : ℝ) : flStep rd x g s 0 = rd (1 + rd (s * -g 0)) := by
  rw [flStep, hx, show s * -g 0 = -(s * g 0) by ring, hr.neg, sub_eq_add_neg]

variable {fexp flog1p : ℝ → ℝ} {P : FlTosArgs 1}

/-- The estimate of `init_lipschitz`: after `j` multiplications by 10. -/
theorem init_large (hP : FlTosLoss rd fexp flog1p (.square loss) P) (hx : P.x0 = fun _ => 1) {g : Fin 1 → ℝ} (hg1 : -1 - 1 / 100 ≤ g 0) (hg2 : g 0 ≤ -1 + 1 / 100) :
    ∀ (k i j : ℕ) (L fT : ℝ), j + k = 100 → (1 - 1 / 10 ^ 6) ^ (j + 1) * (10 ^ j / 1000) ≤ L → L ≤ (1 + 1 / 10 ^ 6) ^ (j + 1) * (10 ^ j / 1000) →
      LossObj.FlValue rd fexp flog1p (.square loss) (flStep rd P.x0 g (rd (1 / L))) fT → 99 * 10 ^ 14 ≤ flTosInitLoop rd P (2 ^ 52 + 6) g k i L fT := by
  have hbig : ∀ (j : ℕ) (L : ℝ), j ≤ 100 → 19 ≤ j → (1 - 1 / 10 ^ 6) ^ (j + 1) * (10 ^ j / 1000) ≤ L → 99 * 10 ^ 14 ≤ L := by
    intro j L hj hj2 hL
    refine le_trans ?_ hL
    have h1 : (99 / 100 : ℝ) ≤ (1 - 1 / 10 ^ 6) ^ (j + 1) := by
      refine le_trans ?_ (pow_le_pow_of_le_one (by norm_num) (by norm_num) (show j + 1 ≤ 101 by omega))
      norm_num
    have h2 : (10 : ℝ) ^ 19 ≤ 10 ^ j := pow_le_pow_right₀ (by norm_num) hj2
    calc (99 : ℝ) * 10 ^ 14 = 99 / 100 * (10 ^ 19 / 1000) := by norm_num
      _ ≤ _ := mul_le_mul h1 (by linarith) (by norm_num) (by linarith)
  intro k
  induction k with
  | zero => intro i j L fT hj hL1 _ _; exact hbig j L (by omega) (by omega) hL1
  | succ k ih =>
    intro i j L fT hj hL1 hL2 hv
    have hL0 : 0 < L := lt_of_lt_of_le (mul_pos (pow_pos (by norm_num) _) (by positivity)) hL1
    unfold flTosInitLoop
    split_ifs with hle
    · by_cases hj19 : 19 ≤ j
      · exact hbig j L (by omega) hj19 hL1
      · exfalso
        have hLs : L ≤ 101 / 100 * 10 ^ 15 := by
          refine hL2.trans ?_
          have h1 : (1 + 1 / 10 ^ 6 : ℝ) ^ (j + 1) ≤ 101 / 100 := by
            refine le_trans (pow_le_pow_right₀ (by norm_num) (show j + 1 ≤ 19 by omega)) ?_
            norm_num
          have h2 : (10 : ℝ) ^ j ≤ 10 ^ 18 := pow_le_pow_right₀ (by norm_num) (by omega)
          calc (1 + 1 / 10 ^ 6 : ℝ) ^ (j + 1) * (10 ^ j / 1000) ≤ 101 / 100 * (10 ^ 18 / 1000) := mul_le_mul h1 (by linarith) (by positivity) (by norm_num)
            _ = _ := by norm_num
        have h1 : 98 / 100 / 10 ^ 15 ≤ 1 / L := by
          rw [le_div_iff₀ hL0]
          norm_num at hLs ⊢
          linarith
        have h2 := (rd_le hr (x := 1 / L) (by positivity)).2
        have h3 : 97 / 100 / 10 ^ 15 ≤ rd (1 / L) := by norm_num at h1 h2 ⊢; linarith
        have h4 : 96 / 100 / 10 ^ 15 ≤ rd (1 / L) * -g 0 := by
          refine le_trans ?_ (mul_le_mul h3 (show 99 / 100 ≤ -g 0 by linarith) (by norm_num) (le_trans (by norm_num) h3))
          norm_num
        have h5 := (rd_le hr (x := rd (1 / L) * -g 0) (le_trans (by norm_num) h4)).2
        have h6 := move hr (y := rd (rd (1 / L) * -g 0)) (by norm_num at h4 h5 ⊢; linarith)
        rw [← step_one hr hx] at h6
        have h7 := value_next hr h6 hv
        linarith
    · have h10 := rd_le hr (x := L * 10) (by positivity)
      refine ih (i + 1) (j + 1) _ _ (by omega) ?_ ?_ (hP.init i _).1
      · refine le_trans ?_ h10.2
        rw [pow_succ (1 - 1 / 10 ^ 6 : ℝ) (j + 1), pow_succ (10 : ℝ) j]
        have : (0 : ℝ) ≤ 1 - 1 / 10 ^ 6 := by norm_num
        calc (1 - 1 / 10 ^ 6 : ℝ) ^ (j + 1) * (1 - 1 / 10 ^ 6) * (10 ^ j * 10 / 1000) = (1 - 1 / 10 ^ 6) * ((1 - 1 / 10 ^ 6) ^ (j + 1) * (10 ^ j / 1000) * 10) := by ring
          _ ≤ _ := mul_le_mul_of_nonneg_left (mul_le_mul_of_nonneg_right hL1 (by norm_num)) this
      · refine le_trans h10.1 ?_
        rw [pow_succ (1 + 1 / 10 ^ 6 : ℝ) (j + 1), pow_succ (10 : ℝ) j]
        have : (0 : ℝ) ≤ 1 + 1 / 10 ^ 6 := by norm_num
        calc (1 + 1 / 10 ^ 6 : ℝ) * (L * 10) ≤ (1 + 1 / 10 ^ 6) * ((1 + 1 / 10 ^ 6) ^ (j + 1) * (10 ^ j / 1000) * 10) :=
              mul_le_mul_of_nonneg_left (mul_le_mul_of_nonneg_right hL2 (by norm_num)) this
          _ = _ := by ring

/-- The step size of the default run is below half the distance of 1 to the next number. -/
theorem tos_step (hP : FlTosLoss rd fexp flog1p (.square loss) P) (hx : P.x0 = fun _ => 1) : 0 < rd (1 / flTosInit rd P) ∧ rd (1 / flTosInit rd P) ≤ 102 / 100 / 10 ^ 16 := by
  have hst := hP.init 0 P.x0
  obtain ⟨hg1, hg2⟩ := grad_one hr hx hst.2
  have hf := value_one hr hx hst.1
  have h3 := rd_le hr (x := 1 / 1000) (by norm_num)
  have hL : 99 * 10 ^ 14 ≤ flTosInit rd P := by
    unfold flTosInit
    rw [hf]
    exact init_large hr hP hx hg1 hg2 100 2 0 _ _ rfl (by simpa using h3.2) (by simpa using h3.1) (hP.init 1 _).1
  have hL0 : 0 < flTosInit rd P := lt_of_lt_of_le (by norm_num) hL
  refine ⟨rd_pos hr (by positivity), ?_⟩
  have h1 : 1 / flTosInit rd P ≤ 1 / (99 * 10 ^ 14) := one_div_le_one_div_of_le (by norm_num) hL
  have h2 := (rd_le hr (x := 1 / flTosInit rd P) (by positivity)).1
  norm_num at h1 h2 ⊢
  linarith

/-- With such a step size an iteration changes nothing. -/
theorem tos_arg {s : ℝ} (hs0 : 0 < s) (hs : s ≤ 102 / 100 / 10 ^ 16) {x g : Fin 1 → ℝ} (hx : x = fun _ => 1) (hg1 : -1 - 1 / 100 ≤ g 0) (hg2 : g 0 ≤ -1 + 1 / 100) :
    flTsArg rd s g x 0 = x := by
  funext j
  rw [show j = 0 from Subsingleton.elim _ _]
  have hg : rd ((0 : Fin 1 → ℝ) 0 + g 0) = -rd (-g 0) := by rw [← hr.neg]; simp
  have h1 := (rd_le hr (x := -g 0) (by linarith)).1
  have h0 := nonneg' hr (x := -g 0) (by linarith)
  unfold flTsArg
  rw [hg, hx]
  obtain ⟨q, hq⟩ : ∃ q, q = rd (-g 0) := ⟨_, rfl⟩
  rw [← hq] at h0 h1 ⊢
  show rd (1 - rd (s * -q)) = 1
  rw [show s * -q = -(s * q) by ring, hr.neg, sub_neg_eq_add]
  have h2 := (rd_le hr (x := s * q) (by positivity)).1
  have h3 : s * q ≤ 102 / 100 / 10 ^ 16 * (102 / 100) := mul_le_mul hs (by norm_num at h1 ⊢; linarith) h0 (by norm_num)
  refine stay hr (nonneg' hr (by positivity)) ?_
  norm_num at h2 h3 ⊢
  linarith

omit hr in
theorem flNorm_zero {v : Fin 1 → ℝ} {s : ℝ} (h0 : rd 0 = 0) (hv : v = fun _ => 0) (h : FlNorm rd v s) : s = 0 := by
  obtain ⟨q, hq, e⟩ := h
  have := flDot_single hq (0, 0) (by simp [hv])
  rw [e, this, mul_zero, h0, Real.sqrt_zero, h0]

/-- One iteration of the default run. -/
theorem tos_iter (hP : FlTosLoss rd fexp flog1p (.square loss) P) {s : ℝ} (hs0 : 0 < s) (hs : s ≤ 102 / 100 / 10 ^ 16) {x : Fin 1 → ℝ} (hx : x = fun _ => 1) (htol : 0 < P.tol) (m it : ℕ) :
    flTosLoop rd P true m it x 0 s = if 0 < it then .ok ⟨x, true, it, 0, s⟩ else match m with
      | 0 => .ok ⟨x, false, it, 0, s⟩
      | m + 1 => flTosLoop rd P true m (it + 1) x 0 s := by
  obtain ⟨hg1, hg2⟩ := grad_one hr hx (hP.fg it x).2
  have h0 := rd_zero hr
  have hn : P.norm it 0 (fun j => rd (x j - x j)) = 0 := flNorm_zero h0 (by funext j; rw [sub_self, h0]) (hP.norm it 0 _)
  have hpt : flTsPoint rd s x 0 = x := by
    funext j
    unfold flTsPoint
    rw [Pi.zero_apply, mul_zero, h0, add_zero, hx]
    exact_mod_cast rd_int hr (m := 1) (by norm_num)
  have hdu : flTsDual rd s 0 x x = 0 := by
    funext j
    unfold flTsDual
    rw [sub_self, h0, zero_div, h0, Pi.zero_apply, add_zero, h0]
  have hls : ¬ (rd (1 / 10 ^ 7) < 0 ∧ true = true) := fun h => absurd h.1 (not_lt.mpr (nonneg' hr (by norm_num)))
  have ht : flTosTrial rd P true it x 0 s = .ok (⟨x, 0, s⟩, false) := by
    unfold flTosTrial
    simp only [bind, Except.bind, hP.prox1, tos_arg hr hs0 hs hx hg1 hg2, hn]
    rw [if_neg (fun h => hls ⟨h.1, rfl⟩)]; rfl
  rw [flTosLoop, ht]
  simp only [bind, Except.bind, hP.prox2, hpt, hdu, zero_div, h0]
  have hst : (if false = true ∧ P.hZero = true then rd (s * rd (102 / 100)) else s) = s := if_neg (by simp)
  rw [hst]
  by_cases hit : 0 < it
  · rw [if_pos ⟨hit, htol⟩, if_pos hit]; rfl
  · rw [if_neg (fun h => hit h.1), if_neg hit]
    cases m <;> rfl

end LsWitness

/-- **C136 (refuted).** In double precision (rounding to nearest, whatever the rule for ties) the default run of `minimize_three_split` (`step_size=None`, hence with line search) on the least-squares
problem of `C132_refuted` (no proximal operators, started at `1`) reports `success=True` in its second iteration, with a certificate of exactly `0` and the starting point, for every positive tolerance,
although the derivative of the loss at `1` is about `-1` and the loss at `1 + 1/128` is smaller.  Since every point to the right of `1` has a larger computed value, `init_lipschitz` multiplies its
estimate by 10 until `x0 - grad0 / L0` rounds to `x0`, and the step size `1/L0` never leaves `x0`. -/
theorem C136_refuted (hr : Nearest 52 rd) {fexp flog1p : ℝ → ℝ} {P : FlTosArgs 1} (hP : FlTosLoss rd fexp flog1p (.square LsWitness.loss) P) (hx : P.x0 = fun _ => 1) (htol : 0 < P.tol)
    (hstep : P.step = none) (hls : 0 < P.lsIter) (hmax : 2 ≤ P.maxIter) :
    (∃ r, flMinimizeTos rd P = .ok r ∧ r.success = true ∧ r.certificate = 0 ∧ r.x = P.x0 ∧ r.nit = 1) ∧
      (∃ g, HasDerivAt (fun t => squareLoss LsWitness.loss.A LsWitness.loss.b 0 fun _ => t) g 1 ∧ g ≤ -(99 / 100)) ∧
      squareLoss LsWitness.loss.A LsWitness.loss.b 0 (fun _ => 1 + 1 / 128) ≤ squareLoss LsWitness.loss.A LsWitness.loss.b 0 (fun _ => 1) - 1 / 300 := by
  refine ⟨?_, LsWitness.far⟩
  obtain ⟨hs0, hs⟩ := LsWitness.tos_step hr hP hx
  obtain ⟨m, hm⟩ : ∃ m, P.maxIter = m + 2 := ⟨P.maxIter - 2, by omega⟩
  refine ⟨⟨P.x0, true, 1, 0, rd (1 / flTosInit rd P)⟩, ?_, rfl, rfl, rfl, rfl⟩
  unfold flMinimizeTos
  simp only [hstep, hm, bind, Except.bind, hP.prox1, hP.prox2]
  rw [if_neg hls.ne', LsWitness.tos_iter hr hP hs0 hs hx htol, if_neg (lt_irrefl 0)]
  show flTosLoop rd P true m 1 P.x0 0 _ = _
  rw [LsWitness.tos_iter hr hP hs0 hs hx htol, if_pos one_pos]

end Copt
