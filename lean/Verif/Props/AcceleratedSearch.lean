import Verif.Props.Accelerated
import Verif.Props.ProxGrad
import Verif.Props.Utils

/-! # The accelerated method with backtracking (C85) and the recorded certificates (C86) -/

set_option linter.unusedSectionVars false

namespace Copt

open Spec
open scoped InnerProductSpace

variable {E : Type} [NormedAddCommGroup E] [InnerProductSpace ℝ E]

/-! ### The line search -/

/-- **C85.** The line search of the accelerated method returns a proximal gradient step from `yk`; its step is at least `min(step, factor / L)` and at most
the initial one; it ends with `break` as soon as `step * factor^k ≤ 1/L`, and then the decrease test holds; a step that is at most `1/L` to begin with is
not changed. -/
theorem C85_search {f : E → ℝ} {g : E → E} {L : ℝ} (hL : 0 < L) (hq : UpperQuad f g L) (prox : E → ℝ → E) (y : E)
    {factor : ℝ} (hf0 : 0 < factor) (hf1 : factor ≤ 1) : ∀ (k : ℕ) (step : ℝ), 0 < step →
      let r := apgSearch (fun x => (f x, g x)) prox y (g y) factor k (prox (y - step • g y) step) step
      r.1 = prox (y - r.2.1 • g y) r.2.1 ∧ (step * factor ^ k ≤ 1 / L → r.2.2 = true) ∧ min step (factor / L) ≤ r.2.1 ∧ r.2.1 ≤ step ∧
        (r.2.2 = true → f r.1 ≤ f y + ⟪g y, r.1 - y⟫_ℝ + ‖r.1 - y‖ ^ 2 / (2 * r.2.1)) ∧ (step ≤ 1 / L → r.2.1 = step) := by
  have hpass : ∀ (xNext : E) (step : ℝ), 0 < step → step ≤ 1 / L → lsTest (f xNext) (f y) (g y) (xNext - y) step := by
    intro xNext step hs hsL
    rw [lsTest_pos hs]
    have h1 := hq y xNext
    have h2 : L / 2 ≤ 1 / (2 * step) := by
      rw [div_le_div_iff₀ two_pos (by linarith)]
      rw [le_div_iff₀ hL] at hsL
      nlinarith
    have h3 := mul_le_mul_of_nonneg_right h2 (sq_nonneg ‖xNext - y‖)
    have h4 : 1 / (2 * step) * ‖xNext - y‖ ^ 2 = ‖xNext - y‖ ^ 2 / (2 * step) := by ring
    linarith
  have hlow : ∀ (xNext : E) (step : ℝ), 0 < step → ¬ lsTest (f xNext) (f y) (g y) (xNext - y) step → factor / L ≤ step * factor := by
    intro xNext step hs hn
    have : ¬ step ≤ 1 / L := fun h => hn (hpass _ _ hs h)
    push Not at this
    have := mul_le_mul_of_nonneg_right this.le hf0.le
    rwa [div_mul_eq_mul_div, one_mul] at this
  intro k
  induction k with
  | zero =>
    intro step hs
    rw [apgSearch]
    simp only
    split
    · rename_i h
      exact ⟨rfl, fun _ => rfl, min_le_left _ _, le_rfl, fun _ => (lsTest_pos hs).mp h, fun _ => rfl⟩
    · rename_i h
      exact ⟨rfl, fun h' => absurd (hpass _ _ hs (by simpa using h')) h, le_trans (min_le_right _ _) (hlow _ _ hs h), by nlinarith, by simp,
        fun h' => absurd (hpass _ _ hs h') h⟩
  | succ k ih =>
    intro step hs
    rw [apgSearch]
    simp only
    split
    · rename_i h
      exact ⟨rfl, fun _ => rfl, min_le_left _ _, le_rfl, fun _ => (lsTest_pos hs).mp h, fun _ => rfl⟩
    · rename_i h
      have hs' : 0 < step * factor := mul_pos hs hf0
      obtain ⟨h1, h2, h3, h4, h5, -⟩ := ih (step * factor) hs'
      have hl := hlow _ _ hs h
      exact ⟨h1, fun h' => h2 (by rw [pow_succ'] at h'; rwa [mul_assoc]), le_trans (le_trans (min_le_right _ _) (le_min hl le_rfl)) h3,
        le_trans h4 (by nlinarith), h5, fun h' => absurd (hpass _ _ hs h') h⟩

/-! ### The run -/

/-- What is claimed of an iteration `(yk, x_next, step)`. -/
structure APGEntryOk (P : APGArgs E) (f : E → ℝ) (g : E → E) (L s0 : ℝ) (e : E × E × ℝ) : Prop where
  prox : e.2.1 = P.proxFn (e.1 - e.2.2 • g e.1) e.2.2
  low : min s0 (P.factor / L) ≤ e.2.2
  high : e.2.2 ≤ s0
  decrease : f e.2.1 ≤ f e.1 + ⟪g e.1, e.2.1 - e.1⟫_ℝ + ‖e.2.1 - e.1‖ ^ 2 / (2 * e.2.2)
  same : s0 ≤ 1 / L → e.2.2 = s0

/-- The steps of the iterations do not increase. -/
def StepsDecrease (log : List (E × E × ℝ)) : Prop := log.Pairwise fun a b => b.2.2 ≤ a.2.2

/-- By how much a sequence of steps has grown: the product of the ratios of consecutive steps, counting only those above 1. -/
noncomputable def growth : List ℝ → ℝ
  | a :: b :: l => max 1 (b / a) * growth (b :: l)
  | _ => 1

theorem growth_append (a b : ℝ) : ∀ l : List ℝ, growth (l ++ [a] ++ [b]) = growth (l ++ [a]) * max 1 (b / a) := by
  intro l
  induction l with
  | nil => simp [growth]
  | cons c l ih =>
    cases l with
    | nil => simp [growth]
    | cons d l =>
      have e1 : growth (c :: d :: l ++ [a] ++ [b]) = max 1 (d / c) * growth (d :: l ++ [a] ++ [b]) := rfl
      have e2 : growth (c :: d :: l ++ [a]) = max 1 (d / c) * growth (d :: l ++ [a]) := rfl
      rw [e1, e2, ih, mul_assoc]

theorem one_le_growth : ∀ l : List ℝ, 1 ≤ growth l
  | [] => le_rfl
  | [_] => le_rfl
  | a :: b :: l => one_le_mul_of_one_le_of_one_le (le_max_left _ _) (one_le_growth (b :: l))

theorem growth_of_decrease : ∀ l : List ℝ, (∀ s ∈ l, 0 < s) → l.Pairwise (fun a b => b ≤ a) → growth l = 1
  | [], _, _ => rfl
  | [_], _, _ => rfl
  | a :: b :: l, hp, h => by
    rw [growth, growth_of_decrease (b :: l) (fun s hs => hp s (List.mem_cons_of_mem _ hs)) (List.pairwise_cons.mp h).2, mul_one]
    exact max_eq_left ((div_le_one (hp a (by simp))).mpr ((List.pairwise_cons.mp h).1 b (by simp)))

theorem fista_rate_of {D N s t : ℝ} (k : ℕ) (hs : 0 < s) (ht : (k + 1 : ℝ) / 2 ≤ t) (hN : 0 ≤ N) (h : 2 * s * t ^ 2 * D ≤ N) :
    D ≤ 2 * N / (s * (k + 1) ^ 2) := by
  rw [le_div_iff₀ (by positivity)]
  by_cases hD : D ≤ 0
  · have : D * (s * ((k : ℝ) + 1) ^ 2) ≤ 0 := mul_nonpos_of_nonpos_of_nonneg hD (by positivity)
    linarith
  · push Not at hD
    have h1 : ((k : ℝ) + 1) ^ 2 ≤ 4 * t ^ 2 := by
      have : (0 : ℝ) ≤ (k + 1 : ℝ) / 2 := by positivity
      nlinarith
    have h2 := mul_le_mul_of_nonneg_left h1 (mul_pos hs hD).le
    nlinarith

/-- The state between two iterations. -/
structure APGInv (P : APGArgs E) (G : ExtFun E) (f : E → ℝ) (g : E → E) (L s0 : ℝ) (st : APGState E) : Prop where
  entries : ∀ e ∈ st.log, APGEntryOk P f g L s0 e
  par : (st.log.length + 2 : ℝ) / 2 ≤ st.tk
  cur : st.x = curX P.x0 st.log
  pot : ∀ y ∈ G.dom, (∀ z ∈ G.dom, f y + G.val y ≤ f z + G.val z) → (st.log = [] ∧ st.tk = 1 ∧ st.yk = P.x0) ∨
    ∃ pre e, st.log = pre ++ [e] ∧ st.x ∈ G.dom ∧
      2 * e.2.2 * (st.tk ^ 2 - st.tk) * ((f st.x + G.val st.x) - (f y + G.val y)) +
        ‖st.tk • st.yk - (st.tk - 1) • st.x - y‖ ^ 2 ≤ growth (st.log.map fun e => e.2.2) * ‖P.x0 - y‖ ^ 2
  rate : ∀ y ∈ G.dom, (∀ z ∈ G.dom, f y + G.val y ≤ f z + G.val z) → ∀ pre e suf, st.log = pre ++ e :: suf →
    (f e.2.1 + G.val e.2.1) - (f y + G.val y) ≤
      2 * (growth ((pre ++ [e]).map fun e => e.2.2) * ‖P.x0 - y‖ ^ 2) / (e.2.2 * ((pre.length + 1 : ℕ) + 1) ^ 2)

theorem APGInv.next {P : APGArgs E} {G : ExtFun E} (hG : ExactProxA P G) {f : E → ℝ} {g : E → E} (hfg : P.fg = fun x => (f x, g x))
    (hf : ConvexGrad f g) {L s0 : ℝ} (hL : 0 < L) (hq : UpperQuad f g L) (hb : P.step = .str "backtracking") (hf0 : 0 < P.factor) (hf1 : P.factor ≤ 1)
    (hs0 : 0 < s0) (hm : s0 * P.factor ^ (P.btIter.toNat - 1) ≤ 1 / L) {st : APGState E} (h : APGInv P G f g L s0 st) :
    APGInv P G f g L s0 (apgStepBranch P s0 { st with grad := (P.fg st.yk).2 }) := by
  obtain ⟨c1, c2, c3, c4, c5, c6⟩ := C85_search hL hq P.proxFn st.yk hf0 hf1 (P.btIter.toNat - 1) s0 hs0
  have hmin : 0 < min s0 (P.factor / L) := lt_min hs0 (div_pos hf0 hL)
  have hbr : ∃ p s ok, apgStepBranch P s0 { st with grad := (P.fg st.yk).2 } = apgNext P { st with grad := (P.fg st.yk).2 } p s ok P.traceCert ∧
      APGEntryOk P f g L s0 (st.yk, p, s) := by
    unfold apgStepBranch
    rw [hb]
    simp only [if_true]
    refine ⟨_, _, _, rfl, ?_⟩
    rw [hfg]
    exact ⟨c1, c3, c4, c5 (c2 hm), c6⟩
  obtain ⟨p, s, ok, hbr, he⟩ := hbr
  rw [hbr]
  have hs : 0 < s := hmin.trans_le he.low
  have hprox : IsProxPt G s (st.yk - s • g st.yk) p := (show p = P.proxFn (st.yk - s • g st.yk) s from he.prox) ▸ hG.2 _ _ hs
  have ht1 : 1 ≤ st.tk := by
    have := h.par
    have : (0 : ℝ) ≤ st.log.length := Nat.cast_nonneg _
    linarith
  have hlog : (apgNext P { st with grad := (P.fg st.yk).2 } p s ok P.traceCert).log = st.log ++ [(st.yk, p, s)] := rfl
  have hpot : ∀ y ∈ G.dom, (∀ z ∈ G.dom, f y + G.val y ≤ f z + G.val z) →
      2 * s * st.tk ^ 2 * ((f p + G.val p) - (f y + G.val y)) + ‖st.tk • p - (st.tk - 1) • st.x - y‖ ^ 2 ≤
        growth ((st.log ++ [(st.yk, p, s)]).map fun e => e.2.2) * ‖P.x0 - y‖ ^ 2 := by
    intro y hy hmy
    rcases h.pot y hy hmy with ⟨h0, h1, h2⟩ | ⟨pre, e, h0, h1, h4⟩
    · have h := fista_step hG.1 hf hs ht1 hprox he.decrease (x := st.x) (Or.inr h1) hy
      rw [h1, h2] at h
      rw [h1, show growth ((st.log ++ [(st.yk, p, s)]).map fun e => e.2.2) = 1 by rw [h0]; rfl, one_mul]
      simp only [one_pow, sub_self, mul_zero, zero_mul, zero_smul, sub_zero, one_smul, zero_add, mul_one] at h ⊢
      exact h
    · have h3 := fista_step hG.1 hf hs ht1 hprox he.decrease (x := st.x) (Or.inl h1) hy
      have he' : 0 < e.2.2 := hmin.trans_le (h.entries e (by rw [h0]; simp)).low
      have hg : growth ((st.log ++ [(st.yk, p, s)]).map fun e => e.2.2) = growth (st.log.map fun e => e.2.2) * max 1 (s / e.2.2) := by
        rw [h0]
        simp only [List.map_append, List.map_cons, List.map_nil]
        exact growth_append _ _ _
      have hv : 0 ≤ (st.tk ^ 2 - st.tk) * ((f st.x + G.val st.x) - (f y + G.val y)) :=
        mul_nonneg (by nlinarith) (by linarith [hmy _ h1])
      have h5 : s ≤ max 1 (s / e.2.2) * e.2.2 := by
        have := mul_le_mul_of_nonneg_right (le_max_right 1 (s / e.2.2)) he'.le
        rwa [div_mul_cancel₀ _ he'.ne'] at this
      have h6 := mul_le_mul_of_nonneg_left h4 (zero_le_one.trans (le_max_left 1 (s / e.2.2)))
      have h7 := mul_le_mul_of_nonneg_right h5 hv
      have h8 := mul_le_mul_of_nonneg_right (le_max_left 1 (s / e.2.2)) (sq_nonneg ‖st.tk • st.yk - (st.tk - 1) • st.x - y‖)
      rw [hg]
      generalize max 1 (s / e.2.2) = R at *
      nlinarith
  have hT := tNext_pos st.tk
  refine ⟨fun e h' => ?_, ?_, ?_, fun y hy hmy => Or.inr ⟨st.log, (st.yk, p, s), rfl, hprox.1, ?_⟩, fun y hy hmy pre e suf hl => ?_⟩
  · rw [hlog, List.mem_append, List.mem_singleton] at h'
    rcases h' with h' | rfl
    · exact h.entries e h'
    · exact he
  · have := tNext_ge (show 0 ≤ st.tk by linarith)
    have := h.par
    show ((st.log ++ [(st.yk, p, s)]).length + 2 : ℝ) / 2 ≤ tNext st.tk
    rw [List.length_append]
    push_cast
    simp only [List.length_cons, List.length_nil]
    push_cast
    linarith
  · show p = curX P.x0 (st.log ++ [(st.yk, p, s)])
    rw [curX_append]
  · have hmom : tNext st.tk • (p + ((st.tk - 1) / tNext st.tk) • (p - st.x)) - (tNext st.tk - 1) • p - y =
        st.tk • p - (st.tk - 1) • st.x - y := by
      rw [smul_add, smul_smul, mul_div_cancel₀ _ hT.ne']
      module
    show 2 * s * (tNext st.tk ^ 2 - tNext st.tk) * ((f p + G.val p) - (f y + G.val y)) +
      ‖tNext st.tk • (p + ((st.tk - 1) / tNext st.tk) • (p - st.x)) - (tNext st.tk - 1) • p - y‖ ^ 2 ≤ _
    rw [hmom, tNext_sq]
    exact hpot y hy hmy
  · rw [hlog] at hl
    rcases List.eq_nil_or_concat suf with rfl | ⟨suf', e', rfl⟩
    · obtain ⟨hpre, hee⟩ := List.append_inj' hl rfl
      obtain rfl : (st.yk, p, s) = e := by simpa using hee
      subst hpre
      refine fista_rate_of (st.log.length + 1) hs (t := st.tk) ?_ (mul_nonneg (zero_le_one.trans (one_le_growth _)) (sq_nonneg _)) ?_
      · have := h.par
        push_cast
        linarith
      · have := hpot y hy hmy
        nlinarith [sq_nonneg ‖st.tk • p - (st.tk - 1) • st.x - y‖]
    · have h1 : st.log ++ [(st.yk, p, s)] = (pre ++ e :: suf') ++ [e'] := by simpa using hl
      exact h.rate y hy hmy pre e suf' (List.append_inj' h1 rfl).1

/-- **C85.** The accelerated method with backtracking (convex `L`-smooth `f`, exact `prox`, enough line-search iterations for the initial step
`1.8 / init_lipschitz`): it returns; every iteration is an accepted proximal gradient step from `yk` whose step is between `min(step0, factor / L)` and
`step0`; and every iterate has `F(x_k) - F(y) ≤ 2 V_k ‖x0 - y‖² / (s_k (k + 1)²)` for every minimiser `y`, where `V_k ≥ 1` is the product of the ratios by
which the accepted step has grown from one iteration to the next.  The FISTA rate is this without `V_k`, which is false (`C85_refuted`). -/
theorem C85_growth_partial {P : APGArgs E} {G : ExtFun E} (hG : ExactProxA P G) {f : E → ℝ} {g : E → E} (hfg : P.fg = fun x => (f x, g x))
    (hf : ConvexGrad f g) {L : ℝ} (hL : 0 < L) (hq : UpperQuad f g L) (hb : P.step = .str "backtracking") (hf0 : 0 < P.factor) (hf1 : P.factor ≤ 1)
    (hbt : 0 < P.btIter) (hm : (18 / 10) / (initLipschitz P.fg P.x0).1 * P.factor ^ (P.btIter.toNat - 1) ≤ 1 / L) :
    ∃ res, minimizeAccelerated P = .ok res ∧ res.x = curX P.x0 res.log ∧
      (∀ e ∈ res.log, APGEntryOk P f g L ((18 / 10) / (initLipschitz P.fg P.x0).1) e) ∧
      ∀ y ∈ G.dom, (∀ z ∈ G.dom, f y + G.val y ≤ f z + G.val z) → ∀ pre e suf, res.log = pre ++ e :: suf →
        (f e.2.1 + G.val e.2.1) - (f y + G.val y) ≤
          2 * (growth ((pre ++ [e]).map fun e => e.2.2) * ‖P.x0 - y‖ ^ 2) / (e.2.2 * ((pre.length + 1 : ℕ) + 1) ^ 2) := by
  have hs0 : 0 < (18 / 10) / (initLipschitz P.fg P.x0).1 := div_pos (by norm_num) (initLipschitz_pos _ _)
  have hstep0 : (apgStep0 P).getD 0 = (18 / 10) / (initLipschitz P.fg P.x0).1 := by unfold apgStep0; rw [hb]; simp
  set s0 := (18 / 10) / (initLipschitz P.fg P.x0).1 with hs0d
  have hbody : ∀ st, APGInv P G f g L s0 st → APGInv P G f g L s0 (apgBody P s0 st).1 := by
    intro st h
    rcases apgBody_cases (P := P) (s0 := s0) st with ⟨-, -, he, -⟩ | ⟨-, -, he, -⟩
    · rw [he]; exact ⟨h.entries, h.par, h.cur, h.pot, h.rate⟩
    · rw [he]; exact h.next hG hfg hf hL hq hb hf0 hf1 hs0 hm
  have key := apgLoop_induct (P := P) (s0 := s0) (fun _ st => APGInv P G f g L s0 st) (fun st _ => APGInv P G f g L s0 st)
    (fun _ st _ h _ => hbody st h) (fun _ st h _ => by
      have := hbody st h
      exact ⟨this.entries, this.par, this.cur, this.pot, this.rate⟩) (fun st h _ => hbody st h)
    P.maxIter (apgInit P) ⟨by simp [apgInit], by simp [apgInit], rfl, fun _ _ _ => Or.inl ⟨rfl, rfl, rfl⟩, fun _ _ _ pre e suf h => by simp [apgInit] at h⟩
  refine ⟨_, by unfold minimizeAccelerated; rw [if_neg (by omega)], ?_⟩
  rw [hstep0]
  exact ⟨key.cur, key.entries, key.rate⟩

/-- **C85.** Each iterate reached by steps that did not increase satisfies the FISTA rate
`F(x_k) - F(y) ≤ 2 ‖x0 - y‖² / (s_k (k + 1)²)` for every minimiser `y`. -/
theorem C85_backtracking_partial {P : APGArgs E} {G : ExtFun E} (hG : ExactProxA P G) {f : E → ℝ} {g : E → E} (hfg : P.fg = fun x => (f x, g x))
    (hf : ConvexGrad f g) {L : ℝ} (hL : 0 < L) (hq : UpperQuad f g L) (hb : P.step = .str "backtracking") (hf0 : 0 < P.factor) (hf1 : P.factor ≤ 1)
    (hbt : 0 < P.btIter) (hm : (18 / 10) / (initLipschitz P.fg P.x0).1 * P.factor ^ (P.btIter.toNat - 1) ≤ 1 / L) :
    ∃ res, minimizeAccelerated P = .ok res ∧ res.x = curX P.x0 res.log ∧
      (∀ e ∈ res.log, APGEntryOk P f g L ((18 / 10) / (initLipschitz P.fg P.x0).1) e) ∧
      ∀ y ∈ G.dom, (∀ z ∈ G.dom, f y + G.val y ≤ f z + G.val z) → ∀ pre e suf, res.log = pre ++ e :: suf → StepsDecrease (pre ++ [e]) →
        (f e.2.1 + G.val e.2.1) - (f y + G.val y) ≤ 2 * ‖P.x0 - y‖ ^ 2 / (e.2.2 * ((pre.length + 1 : ℕ) + 1) ^ 2) := by
  obtain ⟨res, h1, h2, h3, h4⟩ := C85_growth_partial hG hfg hf hL hq hb hf0 hf1 hbt hm
  refine ⟨res, h1, h2, h3, fun y hy hmy pre e suf hl hdec => ?_⟩
  have h5 := h4 y hy hmy pre e suf hl
  rw [growth_of_decrease _ (fun s hs => ?_) (List.pairwise_map.mpr hdec), one_mul] at h5
  · exact h5
  · obtain ⟨q, hq', rfl⟩ := List.mem_map.mp hs
    have hq2 : q ∈ res.log := by
      rw [hl]
      rcases List.mem_append.mp hq' with h | h
      · exact List.mem_append_left _ h
      · exact List.mem_append_right _ (by simp_all)
    exact (lt_min (div_pos (by norm_num) (initLipschitz_pos _ _)) (div_pos hf0 hL)).trans_le (h3 q hq2).low

/-- C85 when the initial step is at most `1/L`: no line search shortens it, and the result of a run of `k` iterations satisfies the FISTA rate. -/
theorem C85_small_step {P : APGArgs E} {G : ExtFun E} (hG : ExactProxA P G) {f : E → ℝ} {g : E → E} (hfg : P.fg = fun x => (f x, g x))
    (hf : ConvexGrad f g) {L : ℝ} (hL : 0 < L) (hq : UpperQuad f g L) (hb : P.step = .str "backtracking") (hf0 : 0 < P.factor) (hf1 : P.factor ≤ 1)
    (hbt : 0 < P.btIter) (hm : (18 / 10) / (initLipschitz P.fg P.x0).1 ≤ 1 / L) :
    ∃ res, minimizeAccelerated P = .ok res ∧ (res.log ≠ [] → ∀ y ∈ G.dom, (∀ z ∈ G.dom, f y + G.val y ≤ f z + G.val z) →
        (f res.x + G.val res.x) - (f y + G.val y) ≤
          2 * ‖P.x0 - y‖ ^ 2 / ((18 / 10) / (initLipschitz P.fg P.x0).1 * (res.log.length + 1) ^ 2)) := by
  have hs0 : 0 < (18 / 10) / (initLipschitz P.fg P.x0).1 := div_pos (by norm_num) (initLipschitz_pos _ _)
  obtain ⟨res, h1, h2, h3, h4⟩ := C85_backtracking_partial hG hfg hf hL hq hb hf0 hf1 hbt
    ((mul_le_of_le_one_right hs0.le (pow_le_one₀ hf0.le hf1)).trans hm)
  refine ⟨res, h1, fun hne y hy hmy => ?_⟩
  rcases List.eq_nil_or_concat res.log with hn | ⟨pre, e, hl⟩
  · exact absurd hn hne
  · have hl' : res.log = pre ++ [e] := by simpa using hl
    have h5 := h4 y hy hmy pre e [] (by simpa using hl') (by
      rw [← hl']
      refine List.pairwise_of_forall_mem_list fun a ha b hb => ?_
      rw [(h3 a ha).same hm, (h3 b hb).same hm])
    rw [(h3 e (by rw [hl']; simp)).same hm] at h5
    rw [h2, hl', curX_append]
    simpa using h5

/-! ### The default line-search parameters -/

theorem initLipschitz_ge (f : E → ℝ) (g : E → E) (x0 : E) : 1e-3 ≤ (initLipschitz (fun x => (f x, g x)) x0).1 := by
  obtain ⟨k, -, he, -⟩ := C28_init_lipschitz f g x0
  rw [he]
  exact le_mul_of_one_le_right (by norm_num) (one_le_pow₀ (by norm_num))

theorem pow_factor : (6 / 10 : ℝ) ^ ((1000 : ℤ).toNat - 1) ≤ 1 / 10 ^ 221 := by
  have h1 : (6 / 10 : ℝ) ^ ((1000 : ℤ).toNat - 1) = ((6 / 10) ^ 9) ^ 111 := by rw [← pow_mul]; rfl
  rw [h1]
  norm_num

theorem pow_grow : (11 / 10 : ℝ) ^ 501 ≤ 10 ^ 21 := by
  have h1 : (11 / 10 : ℝ) ^ 501 = ((11 / 10) ^ 3) ^ 167 := by rw [← pow_mul]
  rw [h1]
  norm_num

/-- The initial step `1.8 / init_lipschitz` of an `L`-smooth function. -/
theorem step0_bounds {f : E → ℝ} {g : E → E} (x0 : E) {L : ℝ} (hL : 0 < L) (hq : UpperQuad f g L) :
    min 1800 ((36 / 100) / L) ≤ (18 / 10) / (initLipschitz (fun x => (f x, g x)) x0).1 ∧ (18 / 10) / (initLipschitz (fun x => (f x, g x)) x0).1 ≤ 1800 := by
  have h1 := initLipschitz_ge f g x0
  have h2 := C28_smooth f g x0 hq
  have h0 := initLipschitz_pos (fun x => (f x, g x)) x0
  constructor
  · rcases le_max_iff.mp h2 with h3 | h3
    · refine le_trans (min_le_left _ _) ?_
      rw [le_div_iff₀ h0]; linarith
    · refine le_trans (min_le_right _ _) ?_
      rw [div_le_div_iff₀ hL h0]; linarith
  · rw [div_le_iff₀ h0]; linarith

/-- C45 with the default parameters (`backtracking_factor=0.6`, `max_iter_backtracking=1000`, at most 500 iterations) and any `L ≤ 10^190`: no line search
is exhausted and every step is at least `min(1800, 0.36 / L)`. -/
theorem C45_defaults {P : PGArgs E} {f : E → ℝ} {g : E → E} {L : ℝ} (hfg : P.fg = fun x => (f x, g x)) (hL : 0 < L) (hL2 : L ≤ 10 ^ 190)
    (hq : UpperQuad f g L) (hstore : P.store = id) (hb : P.step = .str "backtracking") (hf : P.factor = 6 / 10) (hbt : P.btIter = 1000) (hmi : P.maxIter ≤ 500) :
    ∃ res, minimizeProximalGradient P = .ok res ∧ res.warnLs = 0 ∧ ∀ e ∈ res.log, e.ok = true ∧ min 1800 ((36 / 100) / L) ≤ e.step := by
  obtain ⟨b1, b2⟩ := step0_bounds P.x0 hL hq
  rw [← hfg] at b1 b2
  have hs0 : 0 < (18 / 10) / (initLipschitz P.fg P.x0).1 := div_pos (by norm_num) (initLipschitz_pos _ _)
  obtain ⟨res, h1, h2, h3⟩ := C45_run hfg hL hq hstore hb (by rw [hf]; norm_num) (by rw [hf]; norm_num) (by omega) (by
    rw [hf, hbt]
    have e1 : (11 / 10 : ℝ) ^ (P.maxIter + 1) ≤ (11 / 10) ^ 501 := pow_le_pow_right₀ (by norm_num) (by omega)
    calc (11 / 10 : ℝ) ^ (P.maxIter + 1) * (18 / 10 / (initLipschitz P.fg P.x0).1) * (6 / 10) ^ ((1000 : ℤ).toNat - 1)
        ≤ 10 ^ 21 * 1800 * (1 / 10 ^ 221) :=
          mul_le_mul (mul_le_mul (e1.trans pow_grow) b2 hs0.le (by positivity)) pow_factor (by positivity) (by positivity)
      _ ≤ 1 / 10 ^ 190 := by norm_num
      _ ≤ 1 / L := one_div_le_one_div_of_le hL hL2)
  refine ⟨res, h1, h2, fun e he => ⟨(h3 e he).1, le_trans (le_min b1 ?_) (h3 e he).2⟩⟩
  rw [hf]
  exact (min_le_right _ _).trans (div_le_div_of_nonneg_right (by norm_num) hL.le)

/-- C85 with the default parameters and any `L ≤ 10^200`. -/
theorem C85_defaults_partial {P : APGArgs E} {G : ExtFun E} (hG : ExactProxA P G) {f : E → ℝ} {g : E → E} (hfg : P.fg = fun x => (f x, g x))
    (hf : ConvexGrad f g) {L : ℝ} (hL : 0 < L) (hL2 : L ≤ 10 ^ 200) (hq : UpperQuad f g L) (hb : P.step = .str "backtracking") (hf0 : P.factor = 6 / 10)
    (hbt : P.btIter = 1000) : ∃ res, minimizeAccelerated P = .ok res ∧ (∀ e ∈ res.log, min 1800 ((36 / 100) / L) ≤ e.2.2 ∧
        f e.2.1 ≤ f e.1 + ⟪g e.1, e.2.1 - e.1⟫_ℝ + ‖e.2.1 - e.1‖ ^ 2 / (2 * e.2.2)) ∧
      ∀ y ∈ G.dom, (∀ z ∈ G.dom, f y + G.val y ≤ f z + G.val z) → ∀ pre e suf, res.log = pre ++ e :: suf → StepsDecrease (pre ++ [e]) →
        (f e.2.1 + G.val e.2.1) - (f y + G.val y) ≤ 2 * ‖P.x0 - y‖ ^ 2 / (min 1800 ((36 / 100) / L) * ((pre.length + 1 : ℕ) + 1) ^ 2) := by
  obtain ⟨b1, b2⟩ := step0_bounds P.x0 hL hq
  rw [← hfg] at b1 b2
  obtain ⟨res, h1, h2, h3, h4⟩ := C85_backtracking_partial hG hfg hf hL hq hb (by rw [hf0]; norm_num) (by rw [hf0]; norm_num) (by omega) (by
    rw [hf0, hbt]
    calc 18 / 10 / (initLipschitz P.fg P.x0).1 * (6 / 10 : ℝ) ^ ((1000 : ℤ).toNat - 1) ≤ 1800 * (1 / 10 ^ 221) :=
          mul_le_mul b2 pow_factor (by positivity) (by norm_num)
      _ ≤ 1 / 10 ^ 200 := by norm_num
      _ ≤ 1 / L := one_div_le_one_div_of_le hL hL2)
  have hlow : ∀ e ∈ res.log, min 1800 ((36 / 100) / L) ≤ e.2.2 := fun e he => by
    refine le_trans (le_min b1 ?_) (h3 e he).low
    rw [hf0]
    exact (min_le_right _ _).trans (div_le_div_of_nonneg_right (by norm_num) hL.le)
  refine ⟨res, h1, fun e he => ⟨hlow e he, (h3 e he).decrease⟩, fun y hy hmy pre e suf hl hd => (h4 y hy hmy pre e suf hl hd).trans ?_⟩
  have := hlow e (by rw [hl]; simp)
  have hpos : 0 < min 1800 ((36 / 100) / L) := lt_min (by norm_num) (by positivity)
  exact div_le_div_of_nonneg_left (by positivity) (by positivity) (mul_le_mul_of_nonneg_right this (by positivity))

/-! ### The recorded certificates -/

/-- **C86.** `trace_certificate` of proximal gradient: empty unless asked for; otherwise one certificate `‖(x - x_next) / step‖` per iteration. -/
theorem C86_trace {P : PGArgs E} {res : PGResult E} (h : minimizeProximalGradient P = .ok res) :
    res.trace = if P.traceCert then res.log.map fun e => pgCert e.x e.xNext e.step else [] := by
  obtain ⟨-, st, w, hl, rfl⟩ := minimizePG_ok h
  let J : PGState E → Prop := fun st => st.trace = if P.traceCert then st.log.map fun e => pgCert e.x e.xNext e.step else []
  have hbody : ∀ st st' w, J st → pgBody P st = .ok (st', w) → J st' := by
    intro st st' w hJ hb
    have hcb : (pgCallback P st).1.trace = st.trace ∧ (pgCallback P st).1.log = st.log := by unfold pgCallback; split <;> exact ⟨rfl, rfl⟩
    rcases pgBody_cases hb with ⟨-, -, rfl⟩ | ⟨-, r, -, rfl, -⟩
    · show (pgCallback P st).1.trace = _
      rw [hcb.1, hcb.2]; exact hJ
    · show (if P.traceCert then (pgCallback P st).1.trace ++ [pgCert (pgCallback P st).1.x r.xNext r.step] else (pgCallback P st).1.trace) =
        if P.traceCert then ((pgCallback P st).1.log ++ [_]).map _ else []
      rw [hcb.1, hcb.2, hJ]
      cases P.traceCert <;> simp
  exact pgLoop_induct (P := P) (fun _ st => J st) (fun st _ => J st) (fun _ st st' w hJ hb => hbody st st' _ hJ hb)
    (fun _ st st' hJ hb => hbody st st' _ hJ hb) (fun st st' hJ hb => hbody st st' _ hJ hb) P.maxIter (pgInit P) (by simp [J, pgInit]) st w hl

/-- C86 for the accelerated method with backtracking: one certificate per iteration if asked for, none otherwise; a successful run that records them ends
with one below `tol`. -/
theorem C86_accelerated_partial {P : APGArgs E} (hb : P.step = .str "backtracking") (hbt : 0 < P.btIter) : ∃ res, minimizeAccelerated P = .ok res ∧
    (P.traceCert = false → res.trace = []) ∧ (P.traceCert = true → res.trace.length = res.log.length) ∧
    (P.traceCert = true → res.log ≠ [] → res.trace.getLast? = some res.certificate) := by
  let J : APGState E → Prop := fun st => (P.traceCert = false → st.trace = []) ∧ (P.traceCert = true → st.trace.length = st.log.length) ∧
    (P.traceCert = true → st.log ≠ [] → st.trace.getLast? = some st.certificate)
  have hbody : ∀ s0 st, J st → J (apgBody P s0 st).1 := by
    intro s0 st hJ
    rcases apgBody_cases (P := P) (s0 := s0) st with ⟨-, -, he, -⟩ | ⟨-, -, he, -⟩
    · rw [he]; exact hJ
    · rw [he]
      unfold apgStepBranch
      rw [hb]
      simp only [if_true]
      refine ⟨fun h => ?_, fun h => ?_, fun h _ => ?_⟩
      · show (if P.traceCert then _ else st.trace) = _
        rw [h]; exact hJ.1 h
      · show (if P.traceCert then st.trace ++ [_] else st.trace).length = (st.log ++ [_]).length
        rw [h]; simp [hJ.2.1 h]
      · show (if P.traceCert then st.trace ++ [_] else st.trace).getLast? = _
        rw [h]; simp [apgNext]
  have key := apgLoop_induct (P := P) (s0 := (apgStep0 P).getD 0) (fun _ st => J st) (fun st _ => J st)
    (fun _ st _ h _ => hbody _ st h) (fun _ st h _ => hbody _ st h) (fun st h _ => hbody _ st h)
    P.maxIter (apgInit P) ⟨fun _ => rfl, fun _ => rfl, fun _ h => absurd rfl h⟩
  exact ⟨_, by unfold minimizeAccelerated; rw [if_neg (by omega)], key⟩

/-- C86 (refuted for callable steps): the accelerated method with a callable step records nothing, whatever `trace_certificate` says. -/
theorem C86_refuted {P : APGArgs E} {rule : ℕ → APGState E → ℝ} (hb : P.step = .callable rule) (hbt : 0 < P.btIter) :
    ∃ res, minimizeAccelerated P = .ok res ∧ res.trace = [] := by
  have hbody : ∀ s0 st, st.trace = [] → (apgBody P s0 st).1.trace = [] := by
    intro s0 st hJ
    rcases apgBody_cases (P := P) (s0 := s0) st with ⟨-, -, he, -⟩ | ⟨-, -, he, -⟩
    · rw [he]; exact hJ
    · rw [he]
      unfold apgStepBranch
      rw [hb]
      exact hJ
  have key := apgLoop_induct (P := P) (s0 := (apgStep0 P).getD 0) (fun _ st => st.trace = []) (fun st _ => st.trace = [])
    (fun _ st _ h _ => hbody _ st h) (fun _ st h _ => hbody _ st h) (fun st h _ => hbody _ st h) P.maxIter (apgInit P) rfl
  exact ⟨_, by unfold minimizeAccelerated; rw [if_neg (by omega)], key⟩

/-- The hypotheses of C85 and C86 hold together: `f(x) = x²/2` with the default parameters. -/
example : ∃ (P : APGArgs ℝ), ExactProxA P ExtFun.zero ∧ P.fg = (fun x => (x ^ 2 / 2, x)) ∧ ConvexGrad (fun x : ℝ => x ^ 2 / 2) (fun x => x) ∧
    UpperQuad (fun x : ℝ => x ^ 2 / 2) (fun x => x) 1 ∧ P.step = .str "backtracking" ∧ P.factor = 6 / 10 ∧ P.btIter = 1000 ∧ P.traceCert = true := by
  refine ⟨{ accArgs (fun _ => 1) (1 / 1000) 100 with step := .str "backtracking", btIter := 1000, traceCert := true },
    ⟨ExtFun.isConvex_zero, isProxOf_zero⟩, rfl, ?_, ?_, rfl, rfl, rfl, rfl⟩
  · intro x y
    show x ^ 2 / 2 + (y - x) * x ≤ y ^ 2 / 2
    nlinarith [sq_nonneg (x - y)]
  · intro x y
    show y ^ 2 / 2 ≤ x ^ 2 / 2 + (y - x) * x + 1 / 2 * |y - x| ^ 2
    rw [sq_abs]; nlinarith

end Copt
