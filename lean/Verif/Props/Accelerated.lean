import Mathlib.Analysis.SpecialFunctions.Pow.NNReal
import Verif.Proof.Convex
import Verif.Model.ProxGrad

/-! # Properties C48-C50: the accelerated proximal gradient method -/

set_option linter.unusedSectionVars false

namespace Copt

open Spec

open scoped InnerProductSpace

variable {E : Type} [NormedAddCommGroup E] [InnerProductSpace ℝ E]

/-- The function `g` of the problem and its proximal operator: `G` is convex and `prox` is exact. -/
def ExactProxA (P : APGArgs E) (G : ExtFun E) : Prop := G.IsConvex ∧ IsProxOf G P.proxFn

/-! ### The loop -/

/-- Induction over the loop. -/
theorem apgLoop_induct {P : APGArgs E} {s0 : ℝ} (I : ℕ → APGState E → Prop) (Q : APGState E → PGWhy → Prop)
    (hstop : ∀ rem st w, I rem st → (apgBody P s0 st).2 = some w → Q (apgBody P s0 st).1 w)
    (hnext : ∀ rem st, I (rem + 1) st → (apgBody P s0 st).2 = none →
      I rem { (apgBody P s0 st).1 with nit := (apgBody P s0 st).1.nit + 1 })
    (hexh : ∀ st, I 0 st → (apgBody P s0 st).2 = none → Q (apgBody P s0 st).1 .exhausted) :
    ∀ rem st, I rem st → Q (apgLoop P s0 rem st).1 (apgLoop P s0 rem st).2 := by
  intro rem
  induction rem with
  | zero =>
    intro st hI
    rw [apgLoop]
    cases hb : (apgBody P s0 st).2 with
    | some w => exact hstop _ _ _ hI hb
    | none => exact hexh _ hI hb
  | succ rem ih =>
    intro st hI
    rw [apgLoop]
    cases hb : (apgBody P s0 st).2 with
    | some w => exact hstop _ _ _ hI hb
    | none => exact ih _ (hnext _ _ hI hb)

theorem tNext_pos (t : ℝ) : 0 < tNext t := by
  unfold tNext
  have := Real.sqrt_nonneg (1 + 4 * t * t)
  linarith

theorem tNext_sq (t : ℝ) : tNext t ^ 2 - tNext t = t ^ 2 := by
  unfold tNext
  have h : 0 ≤ 1 + 4 * t * t := by nlinarith [sq_nonneg t]
  have := Real.mul_self_sqrt h
  nlinarith

theorem tNext_ge {t : ℝ} (ht : 0 ≤ t) : t + 1 / 2 ≤ tNext t := by
  unfold tNext
  have : 2 * t ≤ Real.sqrt (1 + 4 * t * t) := Real.le_sqrt_of_sq_le (by nlinarith)
  linarith

theorem momentum_identity (a x y : E) (t : ℝ) :
    ‖t • a - (t - 1) • x - y‖ ^ 2 = t * (t - 1) * ‖x - a‖ ^ 2 + t * ‖y - a‖ ^ 2 - (t - 1) * ‖x - y‖ ^ 2 := by
  have e : t • a - (t - 1) • x - y = -((y - a) + (t - 1) • (x - a)) := by module
  have e2 : x - y = (x - a) + (-1 : ℝ) • (y - a) := by module
  rw [e, norm_neg, norm_add_smul_sq, e2, norm_add_smul_sq, real_inner_comm]
  ring

/-- One accelerated step: the potential does not grow. -/
theorem fista_step {G : ExtFun E} (hG : G.IsConvex) {f : E → ℝ} {g : E → E} (hf : ConvexGrad f g) {s : ℝ} (hs : 0 < s)
    {yk p x y : E} {t : ℝ} (ht : 1 ≤ t) (hp : IsProxPt G s (yk - s • g yk) p)
    (hdec : f p ≤ f yk + ⟪g yk, p - yk⟫_ℝ + ‖p - yk‖ ^ 2 / (2 * s)) (hx : x ∈ G.dom ∨ t = 1) (hy : y ∈ G.dom) :
    2 * s * t ^ 2 * ((f p + G.val p) - (f y + G.val y)) + ‖t • p - (t - 1) • x - y‖ ^ 2 ≤
      2 * s * (t ^ 2 - t) * ((f x + G.val x) - (f y + G.val y)) + ‖t • yk - (t - 1) • x - y‖ ^ 2 := by
  have key : ∀ z ∈ G.dom, 2 * s * ((f p + G.val p) - (f z + G.val z)) ≤ ‖z - yk‖ ^ 2 - ‖z - p‖ ^ 2 := by
    intro z hz
    have h := prox_grad_ineq hG hs hp hdec hz
    have hc := hf yk z
    have h' : (f p + G.val p) - (f z + G.val z) ≤ (‖z - yk‖ ^ 2 - ‖z - p‖ ^ 2) / (2 * s) := by linarith
    rw [le_div_iff₀ (by linarith)] at h'
    linarith
  rw [momentum_identity, momentum_identity]
  have h1 := mul_le_mul_of_nonneg_left (key y hy) (show 0 ≤ t by linarith)
  rcases hx with hx | rfl
  · have h2 := mul_le_mul_of_nonneg_left (key x hx) (show 0 ≤ t * (t - 1) by nlinarith)
    nlinarith
  · nlinarith

/-- The two ways through one pass: the callback stops it, or a step branch runs and the certificate is tested. -/
theorem apgBody_cases {P : APGArgs E} {s0 : ℝ} (st : APGState E) :
    (apgCallback P { st with grad := (P.fg st.yk).2 } = true ∧ (apgBody P s0 st).2 = some .callback ∧
      (apgBody P s0 st).1 = { st with grad := (P.fg st.yk).2 } ∧ P.callback ≠ none) ∨
    ((apgBody P s0 st).2 ≠ some .callback ∧ (apgBody P s0 st).2 ≠ some .exhausted ∧
      (apgBody P s0 st).1 = apgStepBranch P s0 { st with grad := (P.fg st.yk).2 } ∧
      ((apgBody P s0 st).2 = some .success ↔ certLt (apgBody P s0 st).1.certificate P.tol)) := by
  unfold apgBody
  simp only
  by_cases hcb : apgCallback P { st with grad := (P.fg st.yk).2 } = true
  · left
    rw [if_pos hcb]
    refine ⟨hcb, rfl, rfl, ?_⟩
    intro h
    simp only [apgCallback, h] at hcb
    cases hcb
  · right
    rw [if_neg hcb]
    generalize apgStepBranch P s0 { st with grad := (P.fg st.yk).2 } = st'
    by_cases h : certLt st'.certificate P.tol
    · rw [if_pos h]
      exact ⟨by simp, by simp, rfl, by simp [h]⟩
    · rw [if_neg h]
      exact ⟨by simp, by simp, rfl, by simp [h]⟩

/-- State after one pass with a callable step that did not stop at the callback. -/
theorem apgBody_callable {P : APGArgs E} {s0 : ℝ} {rule : ℕ → APGState E → ℝ} (hP : P.step = .callable rule) (st : APGState E) :
    ((apgBody P s0 st).2 = some .callback ∧ (apgBody P s0 st).1 = { st with grad := (P.fg st.yk).2 } ∧ P.callback ≠ none) ∨
    ((apgBody P s0 st).2 ≠ some .callback ∧ (apgBody P s0 st).2 ≠ some .exhausted ∧
      (apgBody P s0 st).1 = apgNext P { st with grad := (P.fg st.yk).2 }
        (P.proxFn (st.yk - rule st.nit { st with grad := (P.fg st.yk).2 } • (P.fg st.yk).2)
          (rule st.nit { st with grad := (P.fg st.yk).2 })) (rule st.nit { st with grad := (P.fg st.yk).2 }) true false ∧
      ((apgBody P s0 st).2 = some .success ↔ certLt (apgBody P s0 st).1.certificate P.tol)) := by
  rcases apgBody_cases (P := P) (s0 := s0) st with ⟨-, h⟩ | ⟨h1, h2, h3, h4⟩
  · exact Or.inl h
  · refine Or.inr ⟨h1, h2, ?_, h4⟩
    rw [h3]
    unfold apgStepBranch
    rw [hP]

/-- **C50.** Convex `L`-smooth `f`, convex `G` with exact `prox`, constant callable step `s ≤ 1/L`: the run returns after `k ≥ 0` steps
(`nit + 1` unless the callback stopped it), and if `k ≥ 1` the returned `x` satisfies
`F(x) - F(y) ≤ 2 ‖x0 - y‖² / (s (k+1)²)` for every `y`.  As `max_iter` is arbitrary this covers every iterate. -/
theorem C50_fista_rate {P : APGArgs E} {G : ExtFun E} (hG : ExactProxA P G) {f : E → ℝ} {g : E → E}
    (hfg : ∀ x, (P.fg x).2 = g x) (hf : ConvexGrad f g) {L s : ℝ} (hq : UpperQuad f g L) (hs : 0 < s) (hsL : s * L ≤ 1)
    (hstep : P.step = .callable fun _ _ => s) (hbt : 0 < P.btIter) :
    ∃ res k, minimizeAccelerated P = .ok res ∧ res.log.length = k ∧ res.nit ≤ P.maxIter ∧ (res.why ≠ .callback → k = res.nit + 1) ∧
      (res.why = .callback → k = res.nit ∧ P.callback ≠ none) ∧
      (1 ≤ k → res.x ∈ G.dom ∧ ∀ y ∈ G.dom,
        (f res.x + G.val res.x) - (f y + G.val y) ≤ 2 * ‖P.x0 - y‖ ^ 2 / (s * (k + 1) ^ 2)) := by
  -- the rate in terms of the potential, at the end of a pass
  have hrate : ∀ (x y : E) (t : ℝ) (k : ℕ), 1 ≤ k → (k + 1 : ℝ) / 2 ≤ t →
      2 * s * t ^ 2 * ((f x + G.val x) - (f y + G.val y)) ≤ ‖P.x0 - y‖ ^ 2 →
      (f x + G.val x) - (f y + G.val y) ≤ 2 * ‖P.x0 - y‖ ^ 2 / (s * (k + 1) ^ 2) := by
    intro x y t k hk ht h
    set D := (f x + G.val x) - (f y + G.val y)
    rw [le_div_iff₀ (by positivity)]
    by_cases hD : D ≤ 0
    · have : D * (s * ((k : ℝ) + 1) ^ 2) ≤ 0 := mul_nonpos_of_nonpos_of_nonneg hD (by positivity)
      nlinarith [sq_nonneg ‖P.x0 - y‖]
    · push Not at hD
      have h1 : ((k : ℝ) + 1) ^ 2 ≤ 4 * t ^ 2 := by
        have : (0 : ℝ) ≤ (k + 1 : ℝ) / 2 := by positivity
        nlinarith
      have h2 := mul_le_mul_of_nonneg_left h1 (mul_pos hs hD).le
      nlinarith
  let I : ℕ → APGState E → Prop := fun rem st => st.nit + rem = P.maxIter ∧ st.log.length = st.nit ∧ (st.nit + 2 : ℝ) / 2 ≤ st.tk ∧
    ((st.nit = 0 ∧ st.tk = 1 ∧ st.yk = P.x0) ∨ ((∃ t : ℝ, (st.nit + 1 : ℝ) / 2 ≤ t ∧ st.tk ^ 2 - st.tk = t ^ 2) ∧ st.x ∈ G.dom ∧ ∀ y ∈ G.dom,
      2 * s * (st.tk ^ 2 - st.tk) * ((f st.x + G.val st.x) - (f y + G.val y)) +
        ‖st.tk • st.yk - (st.tk - 1) • st.x - y‖ ^ 2 ≤ ‖P.x0 - y‖ ^ 2))
  let Q : APGState E → PGWhy → Prop := fun st w => st.nit ≤ P.maxIter ∧ (w ≠ .callback → st.log.length = st.nit + 1) ∧
    (w = .callback → st.log.length = st.nit ∧ P.callback ≠ none) ∧
    (1 ≤ st.log.length → st.x ∈ G.dom ∧ ∀ y ∈ G.dom,
        (f st.x + G.val st.x) - (f y + G.val y) ≤ 2 * ‖P.x0 - y‖ ^ 2 / (s * (st.log.length + 1) ^ 2))
  -- one pass
  have hpass : ∀ rem st, I rem st → (apgBody P ((apgStep0 P).getD 0) st).2 ≠ some .callback →
      (apgBody P ((apgStep0 P).getD 0) st).1.nit = st.nit ∧
      (apgBody P ((apgStep0 P).getD 0) st).1.log.length = st.nit + 1 ∧
      (apgBody P ((apgStep0 P).getD 0) st).1.tk = tNext st.tk ∧
      (apgBody P ((apgStep0 P).getD 0) st).1.x ∈ G.dom ∧ ∀ y ∈ G.dom,
        2 * s * st.tk ^ 2 * ((f (apgBody P ((apgStep0 P).getD 0) st).1.x + G.val (apgBody P ((apgStep0 P).getD 0) st).1.x) - (f y + G.val y)) +
          ‖(apgBody P ((apgStep0 P).getD 0) st).1.tk • (apgBody P ((apgStep0 P).getD 0) st).1.yk -
            ((apgBody P ((apgStep0 P).getD 0) st).1.tk - 1) • (apgBody P ((apgStep0 P).getD 0) st).1.x - y‖ ^ 2 ≤ ‖P.x0 - y‖ ^ 2 := by
    rintro rem st ⟨hn, hl, ht, hpot⟩ hnc
    rcases apgBody_callable hstep (s0 := (apgStep0 P).getD 0) st with ⟨h, -⟩ | ⟨-, -, he, -⟩
    · exact absurd h hnc
    · rw [he]
      rw [hfg]
      set p := P.proxFn (st.yk - s • g st.yk) s with hp
      have hprox : IsProxPt G s (st.yk - s • g st.yk) p := hG.2 _ _ hs
      have ht1 : 1 ≤ st.tk := by
        have : (0 : ℝ) ≤ st.nit := Nat.cast_nonneg _
        linarith
      have hdec : f p ≤ f st.yk + ⟪g st.yk, p - st.yk⟫_ℝ + ‖p - st.yk‖ ^ 2 / (2 * s) := by
        have h1 := hq st.yk p
        have h2 : L / 2 ≤ 1 / (2 * s) := by
          rw [div_le_div_iff₀ two_pos (by linarith)]; nlinarith
        have h3 := mul_le_mul_of_nonneg_right h2 (sq_nonneg ‖p - st.yk‖)
        have h4 : 1 / (2 * s) * ‖p - st.yk‖ ^ 2 = ‖p - st.yk‖ ^ 2 / (2 * s) := by ring
        linarith
      refine ⟨rfl, ?_, rfl, hprox.1, fun y hy => ?_⟩
      · show (st.log ++ [_]).length = _
        simp [hl]
      · have hT := tNext_pos st.tk
        have hmom : tNext st.tk • (p + ((st.tk - 1) / tNext st.tk) • (p - st.x)) - (tNext st.tk - 1) • p - y =
            st.tk • p - (st.tk - 1) • st.x - y := by
          rw [smul_add, smul_smul, mul_div_cancel₀ _ hT.ne']
          module
        show 2 * s * st.tk ^ 2 * ((f p + G.val p) - (f y + G.val y)) +
          ‖tNext st.tk • (p + ((st.tk - 1) / tNext st.tk) • (p - st.x)) - (tNext st.tk - 1) • p - y‖ ^ 2 ≤ _
        rw [hmom]
        rcases hpot with ⟨-, h1, h2⟩ | ⟨-, h1, h2⟩
        · have h := fista_step hG.1 hf hs ht1 hprox hdec (x := st.x) (Or.inr h1) hy
          rw [h1, h2] at h
          rw [h1]
          simp only [one_pow, sub_self, mul_zero, zero_mul, zero_smul, sub_zero, one_smul, zero_add, mul_one] at h ⊢
          exact h
        · exact le_trans (fista_step hG.1 hf hs ht1 hprox hdec (x := st.x) (Or.inl h1) hy) (h2 y hy)
  have hnit : ∀ rem st, I rem st → (st.nit + 2 : ℝ) / 2 ≤ st.tk := fun rem st h => h.2.2.1
  -- the end of a pass gives the claim
  have hend : ∀ rem st, I rem st → (apgBody P ((apgStep0 P).getD 0) st).2 ≠ some .callback → ∀ w : PGWhy, w ≠ .callback →
      Q (apgBody P ((apgStep0 P).getD 0) st).1 w := by
    intro rem st hI hnc w hw
    obtain ⟨h1, h2, h3, h4, h5⟩ := hpass rem st hI hnc
    refine ⟨by rw [h1]; have := hI.1; omega, fun _ => by rw [h1, h2], fun h => absurd h hw, fun _ => ⟨h4, fun y hy => ?_⟩⟩
    rw [h2]
    refine hrate _ y st.tk (st.nit + 1) (by omega) ?_ ?_
    · have := hnit rem st hI
      push_cast
      linarith
    · have := h5 y hy
      nlinarith [sq_nonneg ‖(apgBody P ((apgStep0 P).getD 0) st).1.tk • (apgBody P ((apgStep0 P).getD 0) st).1.yk -
            ((apgBody P ((apgStep0 P).getD 0) st).1.tk - 1) • (apgBody P ((apgStep0 P).getD 0) st).1.x - y‖]
  have key := apgLoop_induct (P := P) (s0 := (apgStep0 P).getD 0) I Q
    (by
      intro rem st w hI hb
      by_cases hw : w = .callback
      · subst hw
        rcases apgBody_callable hstep (s0 := (apgStep0 P).getD 0) st with ⟨-, he, hcb⟩ | ⟨h, -⟩
        · obtain ⟨hn, hl, ht, hpot⟩ := hI
          rw [he]
          refine ⟨by simp only; omega, by simp, fun _ => ⟨hl, hcb⟩, fun h1 => ?_⟩
          simp only at h1 ⊢
          rcases hpot with ⟨h0, -⟩ | ⟨⟨t, ht1, ht2⟩, h2, h3⟩
          · omega
          · refine ⟨h2, fun y hy => ?_⟩
            -- the previous parameter t satisfies t² = tk² - tk
            have h4 := h3 y hy
            refine hrate _ y t _ h1 ?_ ?_
            · rw [hl]
              exact ht1
            · rw [← ht2]
              nlinarith [sq_nonneg ‖st.tk • st.yk - (st.tk - 1) • st.x - y‖]
        · exact absurd hb h
      · exact hend rem st hI (by rw [hb]; simpa using hw) w hw)
    (by
      intro rem st hI hb
      obtain ⟨h1, h2, h3, h4, h5⟩ := hpass _ st hI (by rw [hb]; simp)
      have ht := hnit _ st hI
      refine ⟨by have := hI.1; simp only [h1]; omega, by simp only [h1, h2], ?_, Or.inr ⟨⟨st.tk, ?_, ?_⟩, h4, fun y hy => ?_⟩⟩
      · simp only [h1, h3]
        have : (0 : ℝ) ≤ st.nit := Nat.cast_nonneg _
        have := tNext_ge (show 0 ≤ st.tk by linarith)
        push_cast
        linarith
      · simp only [h1]
        push_cast
        linarith
      · simp only
        rw [h3, tNext_sq]
      · simp only
        have h6 := h5 y hy
        rw [h3, tNext_sq, ← h3]
        exact h6)
    (fun st hI hb => hend 0 st hI (by rw [hb]; simp) .exhausted (by simp))
    P.maxIter (apgInit P) ⟨by simp [apgInit], rfl, by simp [apgInit], Or.inl ⟨rfl, rfl, rfl⟩⟩
  obtain ⟨q1, q2, q3, q4⟩ := key
  refine ⟨_, _, by unfold minimizeAccelerated; rw [if_neg (by omega)], rfl, q1, fun h => ?_, fun h => ?_, q4⟩
  · exact q2 h
  · exact q3 h


/-! ### What a run of the accelerated method reports -/

/-- A step branch that is taken: a callable, or the backtracking strategy. -/
def APGKnown (P : APGArgs E) : Prop := (∃ rule, P.step = .callable rule) ∨ P.step = .str "backtracking"

theorem apgBranch_known {P : APGArgs E} (hP : APGKnown P) (s0 : ℝ) (st : APGState E) :
    ∃ p s ok tr, apgStepBranch P s0 st = apgNext P st p s ok tr := by
  rcases hP with ⟨rule, h⟩ | h
  · exact ⟨_, _, _, _, by unfold apgStepBranch; rw [h]⟩
  · unfold apgStepBranch
    rw [h]
    exact ⟨_, _, _, _, rfl⟩

/-- The point before the last step. -/
def prevX (x0 : E) (log : List (E × E × ℝ)) : E := ((log.dropLast).getLast?.map fun e => e.2.1).getD x0

/-- The last point. -/
def curX (x0 : E) (log : List (E × E × ℝ)) : E := (log.getLast?.map fun e => e.2.1).getD x0

theorem curX_append (x0 : E) (log : List (E × E × ℝ)) (e : E × E × ℝ) : curX x0 (log ++ [e]) = e.2.1 := by
  simp [curX]

theorem prevX_append (x0 : E) (log : List (E × E × ℝ)) (e : E × E × ℝ) : prevX x0 (log ++ [e]) = curX x0 log := by
  simp [prevX, curX]

/-- Everything a run of the accelerated method says about itself. -/
theorem apg_run {P : APGArgs E} (hP : APGKnown P) (hbt : 0 < P.btIter) :
    ∃ res, minimizeAccelerated P = .ok res ∧ res.nit ≤ P.maxIter ∧ res.x = curX P.x0 res.log ∧
      (res.why = .callback → P.callback ≠ none ∧ res.log.length = res.nit) ∧
      (res.why ≠ .callback → ∃ pre yk s, res.log = pre ++ [(yk, res.x, s)] ∧ pre.length = res.nit ∧
        res.certificate = pgCert (curX P.x0 pre) (P.proxFn (res.x - s • (P.fg res.x).2) s) s ∧
        (res.success = true ↔ certLt res.certificate P.tol)) ∧
      (res.success = true ↔ res.why = .success) ∧ (res.why = .exhausted → res.nit = P.maxIter) ∧
      (res.warned = true ↔ res.nit = P.maxIter) := by
  let I : ℕ → APGState E → Prop := fun rem st => st.nit + rem = P.maxIter ∧ st.log.length = st.nit ∧ st.x = curX P.x0 st.log
  let R : APGState E → Prop := fun st => ∃ pre yk s, st.log = pre ++ [(yk, st.x, s)] ∧ pre.length = st.nit ∧
        st.certificate = pgCert (curX P.x0 pre) (P.proxFn (st.x - s • (P.fg st.x).2) s) s
  let Q : APGState E → PGWhy → Prop := fun st w => st.nit ≤ P.maxIter ∧ st.x = curX P.x0 st.log ∧
    (w = .callback → P.callback ≠ none ∧ st.log.length = st.nit) ∧
    (w ≠ .callback → R st ∧ (w = .success ↔ certLt st.certificate P.tol)) ∧ (w = .exhausted → st.nit = P.maxIter)
  have hpass : ∀ rem st, I rem st → (apgBody P ((apgStep0 P).getD 0) st).2 ≠ some .callback →
      (apgBody P ((apgStep0 P).getD 0) st).1.nit = st.nit ∧ R (apgBody P ((apgStep0 P).getD 0) st).1 ∧
      (apgBody P ((apgStep0 P).getD 0) st).1.x = curX P.x0 (apgBody P ((apgStep0 P).getD 0) st).1.log := by
    rintro rem st ⟨hn, hl, hx⟩ hnc
    rcases apgBody_cases (P := P) (s0 := (apgStep0 P).getD 0) st with ⟨-, h, -⟩ | ⟨-, -, he, -⟩
    · exact absurd h hnc
    · obtain ⟨p, s, ok, tr, hb⟩ := apgBranch_known hP ((apgStep0 P).getD 0) { st with grad := (P.fg st.yk).2 }
      rw [he, hb]
      refine ⟨rfl, ⟨st.log, st.yk, s, rfl, hl, ?_⟩, ?_⟩
      · show pgCert st.x _ s = _
        rw [hx]; rfl
      · show p = curX P.x0 (st.log ++ [(st.yk, p, s)])
        rw [curX_append]
  have key := apgLoop_induct (P := P) (s0 := (apgStep0 P).getD 0) I Q
    (by
      intro rem st w hI hb
      rcases apgBody_cases (P := P) (s0 := (apgStep0 P).getD 0) st with ⟨-, h1, he, hcb⟩ | ⟨h1, h2, -, h4⟩
      · rw [hb] at h1
        cases h1
        obtain ⟨hn, hl, hx⟩ := hI
        rw [he]
        exact ⟨by simp only; omega, hx, fun _ => ⟨hcb, hl⟩, fun h => absurd rfl h, by simp⟩
      · obtain ⟨a, b, c⟩ := hpass rem st hI h1
        refine ⟨by rw [a]; have := hI.1; omega, c, fun h => ?_, fun _ => ⟨b, ?_⟩, fun h => ?_⟩
        · rw [hb, h] at h1; exact absurd rfl h1
        · rw [← h4, hb]; simp
        · rw [hb, h] at h2; exact absurd rfl h2)
    (by
      intro rem st hI hb
      obtain ⟨a, ⟨pre, yk, s, h1, h2, h3⟩, c⟩ := hpass _ st hI (by rw [hb]; simp)
      refine ⟨by have := hI.1; simp only [a]; omega, ?_, c⟩
      simp only [h1, a]
      simp [h2, a])
    (by
      intro st hI hb
      rcases apgBody_cases (P := P) (s0 := (apgStep0 P).getD 0) st with ⟨-, h1, -⟩ | ⟨h1, h2, -, h4⟩
      · rw [hb] at h1; cases h1
      · obtain ⟨a, b, c⟩ := hpass _ st hI h1
        refine ⟨by rw [a]; have := hI.1; omega, c, by simp, fun _ => ⟨b, ?_⟩, fun _ => by rw [a]; have := hI.1; omega⟩
        rw [← h4, hb]; simp)
    P.maxIter (apgInit P) ⟨by simp [apgInit], rfl, rfl⟩
  obtain ⟨q1, q2, q3, q4, q5⟩ := key
  refine ⟨_, by unfold minimizeAccelerated; rw [if_neg (by omega)], q1, q2, q3, fun h => ?_, by simp, q5, ?_⟩
  · obtain ⟨⟨pre, yk, s, h1, h2, h3⟩, h4⟩ := q4 h
    refine ⟨pre, yk, s, h1, h2, h3, ?_⟩
    simp only [decide_eq_true_eq]
    exact h4
  · simp only [decide_eq_true_eq]
    omega

/-- **C48 (accelerated, partial).** `nit ≤ max_iter`, `nit + 1` iterations unless stopped by the callback, and the warning is issued
when `max_iter` is exhausted.  Missing: the warning is *also* issued when the run succeeds at its last permitted iteration
(`C48_accelerated_refuted`), and unknown strategies are accepted (`C48_accelerated_unknown`). -/
theorem C48_accelerated_partial {P : APGArgs E} (hP : APGKnown P) (hbt : 0 < P.btIter) :
    ∃ res, minimizeAccelerated P = .ok res ∧ res.nit ≤ P.maxIter ∧
      (res.why ≠ .callback → res.log.length = res.nit + 1) ∧
      (res.why = .callback → P.callback ≠ none ∧ res.log.length = res.nit) ∧
      (res.why = .exhausted → res.nit = P.maxIter ∧ res.success = false ∧ res.warned = true) ∧
      (res.success = true → (res.warned = true ↔ res.nit = P.maxIter)) := by
  obtain ⟨res, h1, h2, -, h4, h5, h6, h7, h8⟩ := apg_run hP hbt
  refine ⟨res, h1, h2, fun h => ?_, h4, fun h => ⟨h7 h, ?_, h8.mpr (h7 h)⟩, fun _ => h8⟩
  · obtain ⟨pre, yk, s, hl, hn, -⟩ := h5 h
    rw [hl]; simp [hn]
  · cases hs : res.success with
    | false => rfl
    | true => rw [h6.mp hs] at h; cases h

/-- C48: argument validation of the accelerated method. -/
theorem C48_accelerated_bad_bt (P : APGArgs E) (h : P.btIter ≤ 0) : minimizeAccelerated P = .error .valueError := by
  unfold minimizeAccelerated; rw [if_pos h]

/-- C48 (refuted for unknown strategies): the accelerated method accepts any string, makes no step at all and returns `x0`. -/
theorem C48_accelerated_unknown (P : APGArgs E) (h : 0 < P.btIter) {s : String} (hs : P.step = .str s) (h1 : s ≠ "backtracking") :
    ∃ res, minimizeAccelerated P = .ok res ∧ res.x = P.x0 ∧ res.success = false ∧ res.log = [] := by
  have hbr : ∀ s0 st, apgStepBranch P s0 st = st := by
    intro s0 st
    unfold apgStepBranch
    rw [hs]
    simp only [if_neg h1]
  have key := apgLoop_induct (P := P) (s0 := (apgStep0 P).getD 0)
    (fun _ st => st.x = P.x0 ∧ st.certificate = none ∧ st.log = []) (fun st w => st.x = P.x0 ∧ w ≠ .success ∧ st.log = [])
    (by
      rintro rem st w ⟨a, b, c⟩ hb
      rcases apgBody_cases (P := P) (s0 := (apgStep0 P).getD 0) st with ⟨-, h1, he, -⟩ | ⟨-, -, he, h4⟩
      · rw [hb] at h1
        cases h1
        rw [he]; exact ⟨a, by simp, c⟩
      · rw [he, hbr] at h4
        rw [he, hbr]
        refine ⟨a, fun hw => ?_, c⟩
        rw [hb, hw] at h4
        obtain ⟨r, hr, -⟩ := h4.mp rfl
        simp only at hr
        rw [b] at hr; cases hr)
    (by
      rintro rem st ⟨a, b, c⟩ hb
      rcases apgBody_cases (P := P) (s0 := (apgStep0 P).getD 0) st with ⟨-, h1, -⟩ | ⟨-, -, he, -⟩
      · rw [hb] at h1; cases h1
      · rw [he, hbr]; exact ⟨a, b, c⟩)
    (by
      rintro st ⟨a, b, c⟩ hb
      rcases apgBody_cases (P := P) (s0 := (apgStep0 P).getD 0) st with ⟨-, h1, -⟩ | ⟨-, -, he, -⟩
      · rw [hb] at h1; cases h1
      · rw [he, hbr]; exact ⟨a, by simp, c⟩)
    P.maxIter (apgInit P) ⟨rfl, rfl, rfl⟩
  refine ⟨_, by unfold minimizeAccelerated; rw [if_neg (by omega)], key.1, ?_, key.2.2⟩
  simp only [decide_eq_false_iff_not]
  exact key.2.1

/-- **C49 (partial).** When the accelerated method reports success, the gradient mapping of the returned point with the last step `s`
is below `tol` plus the length of the last move over `s`: the certificate measures against the previous point.  Missing: the
last term cannot be dropped (`C49_refuted`). -/
theorem C49_success_partial {P : APGArgs E} (hP : APGKnown P) (hbt : 0 < P.btIter) :
    ∃ res, minimizeAccelerated P = .ok res ∧ (res.success = true → ∃ pre yk s, res.log = pre ++ [(yk, res.x, s)] ∧ s ≠ 0 ∧
      ‖s⁻¹ • (curX P.x0 pre - P.proxFn (res.x - s • (P.fg res.x).2) s)‖ < P.tol ∧
      ‖s⁻¹ • (res.x - P.proxFn (res.x - s • (P.fg res.x).2) s)‖ < P.tol + ‖s⁻¹ • (res.x - curX P.x0 pre)‖) := by
  obtain ⟨res, h1, -, -, -, h5, h6, -, -⟩ := apg_run hP hbt
  refine ⟨res, h1, fun hs => ?_⟩
  obtain ⟨pre, yk, s, hl, -, hc, hi⟩ := h5 (by rw [h6.mp hs]; simp)
  obtain ⟨r, hr, hlt⟩ := hi.mp hs
  rw [hc] at hr
  unfold pgCert at hr
  split at hr
  · cases hr
  · rename_i hs0
    have hr' := Option.some.inj hr
    refine ⟨pre, yk, s, hl, hs0, by rw [hr']; exact hlt, ?_⟩
    have e : s⁻¹ • (res.x - P.proxFn (res.x - s • (P.fg res.x).2) s) =
        s⁻¹ • (curX P.x0 pre - P.proxFn (res.x - s • (P.fg res.x).2) s) + s⁻¹ • (res.x - curX P.x0 pre) := by module
    rw [e]
    have := norm_add_le (s⁻¹ • (curX P.x0 pre - P.proxFn (res.x - s • (P.fg res.x).2) s)) (s⁻¹ • (res.x - curX P.x0 pre))
    rw [hr'] at this
    linarith

/-! ### The certificate is measured at the wrong point -/

/-- `f(x) = x²/2` from `x0 = 1` with a callable step that depends on the iteration number only. -/
noncomputable def accArgs (rule : ℕ → ℝ) (tol : ℝ) (m : ℕ) : APGArgs ℝ :=
  { fg := fun x => (x ^ 2 / 2, x), x0 := 1, prox := none, tol := tol, maxIter := m, callback := none,
    step := .callable fun k _ => rule k, btIter := 100, factor := 6 / 10, traceCert := false }

theorem acc_body {rule : ℕ → ℝ} {tol : ℝ} {m : ℕ} {s0 : ℝ} (st : APGState ℝ) (hs : rule st.nit ≠ 0) :
    let s := rule st.nit
    let p := st.yk - s * st.yk
    let st' := (apgBody (accArgs rule tol m) s0 st).1
    st'.x = p ∧ st'.yk = p + (st.tk - 1) / tNext st.tk * (p - st.x) ∧ st'.tk = tNext st.tk ∧ st'.nit = st.nit ∧
      (|s⁻¹ * (st.x - (p - s * p))| < tol → (apgBody (accArgs rule tol m) s0 st).2 = some .success) ∧
      (tol ≤ |s⁻¹ * (st.x - (p - s * p))| → (apgBody (accArgs rule tol m) s0 st).2 = none) := by
  intro s p st'
  rcases apgBody_callable (P := accArgs rule tol m) (s0 := s0) (rule := fun k _ => rule k) rfl st with ⟨-, -, h⟩ | ⟨h1, h2, h3, h4⟩
  · exact absurd rfl h
  · have hc : st'.certificate = some |s⁻¹ * (st.x - (p - s * p))| := by
      show (apgBody (accArgs rule tol m) s0 st).1.certificate = _
      rw [h3]
      show pgCert st.x (p - s * p) s = _
      unfold pgCert
      rw [if_neg hs]; rfl
    refine ⟨by show (apgBody (accArgs rule tol m) s0 st).1.x = _; rw [h3]; rfl,
      by show (apgBody (accArgs rule tol m) s0 st).1.yk = _; rw [h3]; rfl,
      by show (apgBody (accArgs rule tol m) s0 st).1.tk = _; rw [h3]; rfl,
      by show (apgBody (accArgs rule tol m) s0 st).1.nit = _; rw [h3]; rfl, fun h => ?_, fun h => ?_⟩
    · exact h4.mpr ⟨_, hc, h⟩
    · cases hh : (apgBody (accArgs rule tol m) s0 st).2 with
      | none => rfl
      | some w =>
        rw [hh] at h1 h2 h4
        cases w with
        | callback => exact absurd rfl h1
        | exhausted => exact absurd rfl h2
        | success =>
          obtain ⟨r, hr, hlt⟩ := h4.mp rfl
          change st'.certificate = some r at hr
          rw [hc] at hr
          have := Option.some.inj hr
          change r < tol at hlt
          linarith

/-- **C48 (accelerated, refuted).** A run that succeeds and still warns that the tolerance was not reached. -/
theorem C48_accelerated_refuted : ∃ (P : APGArgs ℝ) (res : APGResult ℝ), minimizeAccelerated P = .ok res ∧ res.success = true ∧
    res.warned = true := by
  have hb := acc_body (rule := fun _ => 2) (tol := 1) (m := 0) (s0 := (apgStep0 (accArgs (fun _ => 2) 1 0)).getD 0)
    (apgInit (accArgs (fun _ => 2) 1 0)) (by norm_num)
  obtain ⟨-, -, -, hn, hs, -⟩ := hb
  have hw := hs (by simp only [apgInit, accArgs]; norm_num)
  refine ⟨accArgs (fun _ => 2) 1 0, _, by unfold minimizeAccelerated; rw [if_neg (by norm_num [accArgs])], ?_, ?_⟩
  · simp only [decide_eq_true_eq]
    show (apgLoop _ _ 0 _).2 = _
    rw [apgLoop, hw]
  · simp only [decide_eq_true_eq]
    exact Nat.zero_le _

theorem tNext_gt {t : ℝ} (ht : 0 ≤ t) : 1 ≤ tNext t ∧ t < tNext t := by
  have h := tNext_ge ht
  refine ⟨?_, by linarith⟩
  unfold tNext
  have : 1 ≤ Real.sqrt (1 + 4 * t * t) := by
    rw [Real.one_le_sqrt]; nlinarith
  linarith

/-- **C49 (refuted).** No constant makes the claim true, even with every step at most `1/L`: for each `C` there is a run on
`f(x) = x²/2` (`L = 1`, steps in `(0, 1]`) that reports success while `C tol < |f'(x)|` at the returned point. -/
theorem C49_refuted (C : ℝ) : ∃ (rule : ℕ → ℝ) (tol : ℝ) (res : APGResult ℝ), (∀ k, 0 < rule k ∧ rule k ≤ 1) ∧ 0 < tol ∧
    minimizeAccelerated (accArgs rule tol 100) = .ok res ∧ res.success = true ∧ C * tol < |res.x| := by
  set t2 := tNext 1 with ht2
  set t3 := tNext t2 with ht3
  set t4 := tNext t3 with ht4
  obtain ⟨a2, b2⟩ := tNext_gt (t := 1) (by norm_num)
  obtain ⟨a3, b3⟩ := tNext_gt (t := t2) (by linarith)
  obtain ⟨a4, b4⟩ := tNext_gt (t := t3) (by linarith)
  rw [← ht2] at a2 b2
  rw [← ht3] at a3 b3
  rw [← ht4] at a4 b4
  set β := (t2 - 1) / t3 with hβ
  set γ := (t3 - 1) / t4 with hγ
  have hβ0 : 0 < β := div_pos (by linarith) (by linarith)
  have hβ1 : β < 1 := by rw [hβ, div_lt_one (by linarith)]; linarith
  have hγ0 : 0 < γ := div_pos (by linarith) (by linarith)
  set q := Real.sqrt (1 + γ) with hq
  have hqq : q * q = 1 + γ := Real.mul_self_sqrt (by linarith)
  have hq1 : 1 < q := by
    rw [hq, Real.lt_sqrt (by norm_num)]; linarith
  set s4 := 1 - 1 / q with hs4
  have hq' : 1 / q < 1 := by rw [div_lt_one (by linarith)]; exact hq1
  have hq'' : 0 < 1 / q := by positivity
  set tol := β / (4 * (|C| + 1)) with htol
  have hC : 0 < |C| + 1 := by positivity
  have htol0 : 0 < tol := by positivity
  have htolβ : tol ≤ β / 4 := by
    rw [htol]
    apply div_le_div_of_nonneg_left hβ0.le (by norm_num)
    have := abs_nonneg C
    linarith
  have hCt : C * tol < β / 4 := by
    have h1 : C * tol ≤ |C| * tol := mul_le_mul_of_nonneg_right (le_abs_self C) htol0.le
    have h2 : (|C| + 1) * tol = β / 4 := by rw [htol]; field_simp
    nlinarith
  let rule : ℕ → ℝ := fun k => if k = 0 then 1 / 2 else if k = 1 then 1 else if k = 2 then 1 / 2 else s4
  have hrule : ∀ k, 0 < rule k ∧ rule k ≤ 1 := by
    intro k
    show 0 < (if k = 0 then 1 / 2 else if k = 1 then 1 else if k = 2 then 1 / 2 else s4) ∧ (if k = 0 then 1 / 2 else if k = 1 then 1 else if k = 2 then 1 / 2 else s4) ≤ 1
    split
    · norm_num
    · split
      · norm_num
      · split
        · norm_num
        · constructor <;> linarith
  refine ⟨rule, tol, ?_⟩
  set P := accArgs rule tol 100 with hP
  set s0 := (apgStep0 P).getD 0 with hs0
  -- first pass
  set st0 := apgInit P with hst0
  have n0 : st0.nit = 0 := rfl
  have r0 : rule st0.nit = 1 / 2 := rfl
  obtain ⟨x1, y1, k1, m1, -, w1⟩ := acc_body (rule := rule) (tol := tol) (m := 100) (s0 := s0) st0 (by rw [r0]; norm_num)
  set st1 := (apgBody (accArgs rule tol 100) s0 st0).1 with hst1
  rw [r0] at x1 y1 w1
  have e0 : st0.x = 1 ∧ st0.yk = 1 ∧ st0.tk = 1 := ⟨rfl, rfl, rfl⟩
  rw [e0.2.1] at x1 y1 w1
  rw [e0.1] at y1 w1
  rw [e0.2.2] at y1 k1
  norm_num at x1 y1
  replace w1 := w1 (by rw [abs_of_pos (by norm_num)]; linarith)
  -- second pass
  set st1' := { st1 with nit := st1.nit + 1 } with hst1'
  have n1 : st1'.nit = 1 := by show st1.nit + 1 = 1; rw [m1, n0]
  have r1 : rule st1'.nit = 1 := by rw [n1]; rfl
  obtain ⟨x2, y2, k2, m2, -, w2⟩ := acc_body (rule := rule) (tol := tol) (m := 100) (s0 := s0) st1' (by rw [r1]; norm_num)
  set st2 := (apgBody (accArgs rule tol 100) s0 st1').1 with hst2
  rw [r1] at x2 y2 w2
  have e1 : st1'.x = 1 / 2 ∧ st1'.yk = 1 / 2 ∧ st1'.tk = t2 := ⟨x1, y1, k1⟩
  rw [e1.2.1] at x2 y2 w2
  rw [e1.1] at y2 w2
  rw [e1.2.2] at y2 k2
  rw [← ht3, ← hβ] at y2
  norm_num at x2
  replace w2 := w2 (by norm_num; linarith)
  -- third pass
  set st2' := { st2 with nit := st2.nit + 1 } with hst2'
  have n2 : st2'.nit = 2 := by show st2.nit + 1 = 2; rw [m2, n1]
  have r2 : rule st2'.nit = 1 / 2 := by rw [n2]; rfl
  obtain ⟨x3, y3, k3, m3, -, w3⟩ := acc_body (rule := rule) (tol := tol) (m := 100) (s0 := s0) st2' (by rw [r2]; norm_num)
  set st3 := (apgBody (accArgs rule tol 100) s0 st2').1 with hst3
  rw [r2] at x3 y3 w3
  have e2 : st2'.x = 0 ∧ st2'.yk = -β / 2 ∧ st2'.tk = t3 := ⟨x2, by show st2.yk = _; rw [y2]; ring, k2⟩
  rw [e2.2.1] at x3 y3 w3
  rw [e2.1] at y3 w3
  rw [e2.2.2] at y3 k3
  rw [← ht4, ← hγ] at y3
  replace w3 := w3 (by
    have : (1 / 2 : ℝ)⁻¹ * (0 - (-β / 2 - 1 / 2 * (-β / 2) - 1 / 2 * (-β / 2 - 1 / 2 * (-β / 2)))) = β / 4 := by ring
    rw [this, abs_of_pos (by linarith)]; exact htolβ)
  -- fourth pass
  set st3' := { st3 with nit := st3.nit + 1 } with hst3'
  have n3 : st3'.nit = 3 := by show st3.nit + 1 = 3; rw [m3, n2]
  have r3 : rule st3'.nit = s4 := by rw [n3]; rfl
  obtain ⟨x4, -, -, -, w4, -⟩ := acc_body (rule := rule) (tol := tol) (m := 100) (s0 := s0) st3' (by rw [r3]; intro h; linarith)
  set st4 := (apgBody (accArgs rule tol 100) s0 st3').1 with hst4
  rw [r3] at x4 w4
  have e3 : st3'.x = -β / 4 ∧ st3'.yk = -β / 4 * (q * q) :=
    ⟨by show st3.x = _; rw [x3]; ring, by show st3.yk = _; rw [y3, hqq]; ring⟩
  rw [e3.2] at x4 w4
  rw [e3.1] at w4
  have hx4 : st4.x = -β / 4 * q := by
    rw [x4, hs4]; field_simp; ring
  replace w4 := w4 (by
    have : -β / 4 - (-β / 4 * (q * q) - s4 * (-β / 4 * (q * q)) - s4 * (-β / 4 * (q * q) - s4 * (-β / 4 * (q * q)))) = 0 := by
      rw [hs4]; field_simp; ring
    rw [this, mul_zero, abs_zero]; exact htol0)
  have hrun : apgLoop P s0 100 st0 = (st4, .success) := by
    rw [show (100 : ℕ) = 96 + 1 + 1 + 1 + 1 from rfl, apgLoop]
    simp only [hP, w1]
    rw [← hst1, ← hst1', apgLoop]
    simp only [w2]
    rw [← hst2, ← hst2', apgLoop]
    simp only [w3]
    rw [← hst3, ← hst3', apgLoop]
    simp only [w4]
    rw [← hst4]
  refine ⟨_, hrule, htol0, by unfold minimizeAccelerated; rw [if_neg (by norm_num [hP, accArgs])], ?_, ?_⟩
  · simp only [decide_eq_true_eq]
    show (apgLoop P s0 100 st0).2 = _
    rw [hrun]
  · show _ < |(apgLoop P s0 100 st0).1.x|
    rw [hrun]
    show _ < |st4.x|
    rw [hx4, show -β / 4 * q = -(β / 4 * q) by ring, abs_neg, abs_of_pos (by positivity)]
    nlinarith

/-- The hypotheses of C50 and C49 hold together: `f(x) = x²/2` with step `1/2`. -/
example : ExactProxA (accArgs (fun _ => 1 / 2) (1 / 1000) 100) ExtFun.zero ∧
    (accArgs (fun _ => 1 / 2) (1 / 1000) 100).fg = (fun x => (x ^ 2 / 2, x)) ∧ ConvexGrad (fun x : ℝ => x ^ 2 / 2) (fun x => x) ∧
    UpperQuad (fun x : ℝ => x ^ 2 / 2) (fun x => x) 1 ∧ (1 / 2 : ℝ) * 1 ≤ 1 ∧
    (accArgs (fun _ => 1 / 2) (1 / 1000) 100).step = .callable (fun _ _ => 1 / 2) ∧
    0 < (accArgs (fun _ => 1 / 2) (1 / 1000) 100).btIter ∧ APGKnown (accArgs (fun _ => 1 / 2) (1 / 1000) 100) := by
  refine ⟨⟨ExtFun.isConvex_zero, isProxOf_zero⟩, rfl, ?_, ?_, by norm_num, rfl, by norm_num [accArgs], Or.inl ⟨_, rfl⟩⟩
  · intro x y
    show x ^ 2 / 2 + (y - x) * x ≤ y ^ 2 / 2
    nlinarith [sq_nonneg (x - y)]
  · intro x y
    show y ^ 2 / 2 ≤ x ^ 2 / 2 + (y - x) * x + 1 / 2 * |y - x| ^ 2
    rw [sq_abs]; nlinarith

end Copt
