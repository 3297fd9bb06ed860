import Verif.Props.ThreeSplit

/-!
# C107: three operator splitting with its line search

The default of `minimize_three_split` is `line_search=True` (always, when `step_size` is not given).  The accepted steps can exceed `2/L`, so that the contraction of
C74 is not available: the acceptance test and cocoercivity are combined.  `e` collects the two tolerances of the code, `LS_EPS` in the test and
the `1e-7` below which no search is made.
-/

set_option linter.unusedSectionVars false

namespace Copt

open Spec

open scoped InnerProductSpace

variable {E : Type} [NormedAddCommGroup E] [InnerProductSpace ℝ E]

/-- One accepted step, from any pair `(z, u)`. -/
theorem adaptive_pair {G : ExtFun E} (hG : G.IsConvex) {f : E → ℝ} {g : E → E} {L s e : ℝ} (hL : 0 < L) (hs : 0 < s)
    (hf : ConvexGrad f g) (hq : UpperQuad f g L) {z u x zs us : E} (hg : IsSubgrad G zs (-us - g zs))
    (hx : IsProxPt G s (z - s • (u + g z)) x) (hls : f x ≤ f z + ⟪g z, x - z⟫_ℝ + ‖x - z‖ ^ 2 / (2 * s) + e) (he : 0 ≤ e) :
    ‖(x - zs) + s • (u - us)‖ ^ 2 + ‖x - z‖ ^ 2 / (2 * (1 + 2 * s * L)) ≤ ‖z - zs‖ ^ 2 + s ^ 2 * ‖u - us‖ ^ 2 + 2 * s * e := by
  have hm := (hx.subgrad hG hs).mono hg
  set D := g z - g zs with hD
  set d := x - z with hd
  set w := z - zs with hw
  set v := u - us with hv
  have e2 : x - zs = d + w := by rw [hd, hw]; abel
  have e1 : s⁻¹ • (z - s • (u + g z) - x) - (-us - g zs) = -(s⁻¹ • d) - v - D := by
    rw [hd, hv, hD, show z - s • (u + g z) - x = -(x - z) - s • (u + g z) by abel, smul_sub, smul_smul, inv_mul_cancel₀ hs.ne', one_smul, smul_neg]
    abel
  rw [e1, e2, inner_sub_left, inner_sub_left, inner_neg_left, inner_smul_left, conj_trivial] at hm
  have hlow := convex_smooth_lower hL hf hq z zs
  have hcx := hf zs x
  have hco := cocoercive hL hf hq z zs
  rw [← hD, ← hw] at hco
  rw [norm_sub_rev (g zs) (g z), ← hD] at hlow
  have i1 : ⟪g z, zs - z⟫_ℝ = -⟪g z, w⟫_ℝ := by rw [hw, ← inner_neg_right]; congr 1; abel
  have i2 : ⟪g zs, x - zs⟫_ℝ = ⟪g zs, d⟫_ℝ + ⟪g zs, w⟫_ℝ := by rw [e2, inner_add_right]
  have i3 : ⟪D, d + w⟫_ℝ = ⟪g z, d⟫_ℝ + ⟪g z, w⟫_ℝ - ⟪g zs, d⟫_ℝ - ⟪g zs, w⟫_ℝ := by
    rw [hD, inner_sub_left, inner_add_right, inner_add_right]; ring
  rw [i1] at hlow
  rw [i2] at hcx
  -- the two lower bounds on the variation of the gradient
  have hA : 1 / (2 * L) * ‖D‖ ^ 2 - ‖d‖ ^ 2 / (2 * s) - e ≤ ⟪D, d + w⟫_ℝ := by rw [i3]; linarith
  have hB : 1 / L * ‖D‖ ^ 2 + ⟪D, d⟫_ℝ ≤ ⟪D, d + w⟫_ℝ := by rw [inner_add_right]; linarith
  set α : ℝ := 1 / (1 + 2 * s * L) with hα
  have hden : 0 < 1 + 2 * s * L := by positivity
  have hα0 : 0 < α := by positivity
  have hα1 : α ≤ 1 := by rw [hα, div_le_one hden]; nlinarith [mul_pos hs hL]
  clear_value α D d w v
  have hαs : α * (1 + 2 * s * L) = 1 := by rw [hα]; field_simp
  have hC : -((1 - α) * ‖d‖ ^ 2 / (2 * s)) - α ^ 2 * L / 2 * ‖d‖ ^ 2 - e ≤ ⟪D, d + w⟫_ℝ := by
    have h1 := mul_le_mul_of_nonneg_left hA (by linarith : 0 ≤ 1 - α)
    have h2 := mul_le_mul_of_nonneg_left hB hα0.le
    have h3 : 0 ≤ ‖D + (α * L) • d‖ ^ 2 := sq_nonneg _
    rw [norm_add_smul_sq] at h3
    have h4 : 1 / (2 * L) * (‖D‖ ^ 2 + 2 * (α * L) * ⟪D, d⟫_ℝ + (α * L) ^ 2 * ‖d‖ ^ 2) =
        1 / (2 * L) * ‖D‖ ^ 2 + α * ⟪D, d⟫_ℝ + α ^ 2 * L / 2 * ‖d‖ ^ 2 := by field_simp
    have h5 := mul_nonneg (by positivity : 0 ≤ 1 / (2 * L)) h3
    rw [h4] at h5
    have h6 : (1 - α) * (1 / (2 * L) * ‖D‖ ^ 2) + α * (1 / L * ‖D‖ ^ 2) = 1 / (2 * L) * ‖D‖ ^ 2 + α * (1 / (2 * L) * ‖D‖ ^ 2) := by field_simp; ring
    have h7 : 0 ≤ α * (1 / (2 * L) * ‖D‖ ^ 2) := by positivity
    have h8 : (1 - α) * e ≤ e := mul_le_of_le_one_left he (by linarith)
    have h9 : (1 - α) * ‖d‖ ^ 2 / (2 * s) = (1 - α) * (‖d‖ ^ 2 / (2 * s)) := by ring
    rw [h9]
    linarith
  -- put together
  rw [norm_add_smul_sq, e2, norm_add_sq_real]
  have m1 := mul_nonneg (by positivity : 0 ≤ 2 * s) hm
  have e5 : 2 * s * (-(s⁻¹ * ⟪d, d + w⟫_ℝ) - ⟪v, d + w⟫_ℝ - ⟪D, d + w⟫_ℝ) = -2 * ⟪d, d + w⟫_ℝ - 2 * s * ⟪v, d + w⟫_ℝ - 2 * s * ⟪D, d + w⟫_ℝ := by
    field_simp
  rw [e5, inner_add_right d, real_inner_self_eq_norm_sq] at m1
  have m2 := mul_le_mul_of_nonneg_left hC (by positivity : 0 ≤ 2 * s)
  have e6 : 2 * s * (-((1 - α) * ‖d‖ ^ 2 / (2 * s)) - α ^ 2 * L / 2 * ‖d‖ ^ 2 - e) = -((1 - α) * ‖d‖ ^ 2) - s * L * α ^ 2 * ‖d‖ ^ 2 - 2 * s * e := by
    field_simp
  rw [e6] at m2
  have e7 : ⟪d + w, v⟫_ℝ = ⟪v, d + w⟫_ℝ := real_inner_comm _ _
  have e8 : ‖d‖ ^ 2 / (2 * (1 + 2 * s * L)) = α / 2 * ‖d‖ ^ 2 := by rw [hα]; field_simp
  rw [e7, e8]
  have e9 : α / 2 ≤ α - s * L * α ^ 2 := by
    have : s * L * α ^ 2 = α * (1 - α) / 2 := by
      have : 2 * (s * L) * α = 1 - α := by linarith
      calc s * L * α ^ 2 = α * (2 * (s * L) * α) / 2 := by ring
        _ = _ := by rw [this]
    rw [this]
    have := mul_pos hα0 hα0
    linarith
  have e10 := mul_le_mul_of_nonneg_right e9 (sq_nonneg ‖d‖)
  linarith

/-- The tolerances of the line search. -/
noncomputable def lsSlack (L : ℝ) : ℝ := max lsEps (L / 2 * (1 / 10 ^ 7) ^ 2)

theorem lsSlack_nonneg (L : ℝ) : 0 ≤ lsSlack L := le_max_of_le_left (by unfold lsEps; positivity)

/-- With the quadratic upper bound the line search accepts as soon as the step is at most `1/L`. -/
theorem tsSearch_accepts {P : TSArgs E} {f : E → ℝ} {g : E → E} (hfg : ∀ x, P.fg x = (f x, g x)) {L : ℝ} (hL : 0 < L) (hq : UpperQuad f g L)
    (hfac : 0 < P.factor) (z u : E) : ∀ (k : ℕ) (step : ℝ), 0 < step → step * P.factor ^ k * L ≤ 1 →
      let r := tsSearch P.fg P.p1 z u (P.fg z).2 (P.fg z).1 P.factor k step
      r.ok = true ∧ (r.step = step ∨ P.factor / L ≤ r.step) := by
  have hacc : ∀ step x, 0 < step → step * L ≤ 1 → (P.fg x).1 - ((P.fg z).1 + ⟪(P.fg z).2, x - z⟫_ℝ + ‖x - z‖ ^ 2 / (2 * step)) ≤ lsEps := by
    intro step x hs h
    have h1 := hq z x
    rw [hfg, hfg]
    simp only
    have h2 : L / 2 * ‖x - z‖ ^ 2 ≤ ‖x - z‖ ^ 2 / (2 * step) := by
      rw [le_div_iff₀ (by positivity)]
      nlinarith [sq_nonneg ‖x - z‖]
    have h3 : 0 ≤ lsEps := by unfold lsEps; positivity
    linarith
  intro k
  induction k with
  | zero =>
    intro step hs h
    rw [pow_zero, mul_one] at h
    rw [tsSearch]
    simp only
    rw [if_pos (hacc step _ hs h)]
    exact ⟨rfl, Or.inl rfl⟩
  | succ k ih =>
    intro step hs h
    rw [tsSearch]
    simp only
    split
    · exact ⟨rfl, Or.inl rfl⟩
    · rename_i hno
      have hbig : 1 < step * L := by
        by_contra hc
        push Not at hc
        exact hno (hacc step _ hs hc)
      obtain ⟨a, b⟩ := ih (step * P.factor) (by positivity) (by rw [mul_assoc step, ← pow_succ']; exact h)
      refine ⟨a, Or.inr ?_⟩
      rcases b with b | b
      · rw [b, div_le_iff₀ hL]; nlinarith
      · exact b

/-- What one iteration does with the line search switched on. -/
theorem tsStep_adaptive {P : TSArgs E} {f : E → ℝ} {g : E → E} (hfg : ∀ x, P.fg x = (f x, g x)) {L : ℝ} (hL : 0 < L) (hq : UpperQuad f g L)
    (hfac : 0 < P.factor) (hf1 : P.factor ≤ 1) (z u : E) {step : ℝ} (hs : 0 < step) (hbt : step * P.factor ^ (P.btIter.toNat - 1) * L ≤ 1)
    (hsearch : P.search = true) :
    let r := (tsStep P z u step).1
    0 < r.step ∧ r.step ≤ step ∧ (r.step = step ∨ P.factor / L ≤ r.step) ∧ r.x = P.p1 (z - r.step • (u + g z)) r.step ∧
      f r.x ≤ f z + ⟪g z, r.x - z⟫_ℝ + ‖r.x - z‖ ^ 2 / (2 * r.step) + lsSlack L  ∧
      (f r.x ≤ f z + ⟪g z, r.x - z⟫_ℝ + ‖r.x - z‖ ^ 2 / (2 * r.step) + lsEps ∨ ‖r.x - z‖ / r.step < L / 10 ^ 7) := by
  obtain ⟨a1, a2, a3, a4, a5, -, -, a8⟩ := tsStep_spec hfac z u hs
  have hfz : (P.fg z).2 = g z := by rw [hfg]
  by_cases hl : (tsStep P z u step).2 = true
  · have hacc := tsSearch_accepts hfg hL hq hfac z u (P.btIter.toNat - 1) step hs hbt
    have e : (tsStep P z u step).1 = tsSearch P.fg P.p1 z u (P.fg z).2 (P.fg z).1 P.factor (P.btIter.toNat - 1) step := by
      unfold tsStep at hl ⊢
      simp only at hl ⊢
      rw [if_pos hl]
    simp only at hacc
    rw [← e] at hacc
    obtain ⟨h1, h2⟩ := hacc
    have h3 := a5 h1
    obtain ⟨h4, h5⟩ := a8 hl
    refine ⟨a2, (a4 hf1).1.trans (a4 hf1).2, h2, by rw [h3, ← hfz]; exact a3, ?_⟩
    have h8 : f (tsStep P z u step).1.x ≤ f z + ⟪g z, (tsStep P z u step).1.x - z⟫_ℝ +
        ‖(tsStep P z u step).1.x - z‖ ^ 2 / (2 * (tsStep P z u step).1.used) + lsEps := by
      have h6 := h5 h1
      rw [h4, hfg, hfg] at h6
      simp only at h6
      linarith
    have h7 : lsEps ≤ lsSlack L := le_max_left _ _
    rw [h3]
    exact ⟨by linarith, Or.inl h8⟩
  · have hsm : ‖P.p1 (z - step • (u + (P.fg z).2)) step - z‖ ≤ 1 / 10 ^ 7 := by
      by_contra hc
      push Not at hc
      apply hl
      unfold tsStep
      simp only
      rw [hsearch, Bool.and_true]
      exact decide_eq_true hc
    have e : (tsStep P z u step).1 = ⟨P.p1 (z - step • (u + (P.fg z).2)) step, step, step, 0, true⟩ := by
      unfold tsStep at hl ⊢
      simp only at hl ⊢
      rw [if_neg hl]
    simp only [e]
    refine ⟨hs, le_refl _, Or.inl trivial, by rw [hfz], ?_⟩
    generalize P.p1 (z - step • (u + (P.fg z).2)) step = x at hsm
    have h1 := hq z x
    have h2 : L / 2 * ‖x - z‖ ^ 2 ≤ L / 2 * (1 / 10 ^ 7) ^ 2 := mul_le_mul_of_nonneg_left (pow_le_pow_left₀ (norm_nonneg _) hsm 2) (by positivity)
    have h3 : L / 2 * (1 / 10 ^ 7) ^ 2 ≤ lsSlack L := le_max_right _ _
    have h4 : 0 ≤ ‖x - z‖ ^ 2 / (2 * step) := by positivity
    refine ⟨by linarith, ?_⟩
    rcases le_or_gt (step * L) 1 with h5 | h5
    · have h6 : L / 2 * ‖x - z‖ ^ 2 ≤ ‖x - z‖ ^ 2 / (2 * step) := by
        rw [le_div_iff₀ (by positivity)]
        nlinarith [sq_nonneg ‖x - z‖]
      have h7 : 0 ≤ lsEps := by unfold lsEps; positivity
      exact Or.inl (by linarith)
    · right
      rw [div_lt_iff₀ hs]
      calc ‖x - z‖ ≤ 1 / 10 ^ 7 := hsm
        _ = 1 / 10 ^ 7 * 1 := by ring
        _ < 1 / 10 ^ 7 * (step * L) := by gcongr
        _ = L / 10 ^ 7 * step := by ring

/-- The acceptance test of the line search (splitting.py:141-144) with slack `e`. -/
def LSTest (f : E → ℝ) (g : E → E) (z x : E) (s e : ℝ) : Prop := f x ≤ f z + ⟪g z, x - z⟫_ℝ + ‖x - z‖ ^ 2 / (2 * s) + e

/-- The squared distance to a primal-dual solution in the metric of the step `s`. -/
noncomputable def tsDist (P : TSArgs E) (zs us : E) (s : ℝ) (k : ℕ) : ℝ := ‖(tsIter P k).z - zs‖ ^ 2 + s ^ 2 * ‖(tsIter P k).u - us‖ ^ 2

/-- What is assumed of a call with line search: the smallest candidate of a search is at most `1/L`. -/
structure TSAdaptive (P : TSArgs E) (f : E → ℝ) (g : E → E) (L : ℝ) : Prop where
  fg : ∀ x, P.fg x = (f x, g x)
  conv : ConvexGrad f g
  lip : 0 < L
  upper : UpperQuad f g L
  search : P.search = true
  growth : P.hLip = none
  step : ∀ s, P.stepSize = some s → 0 < s
  factor : 0 < P.factor
  factor_le : P.factor ≤ 1
  iters : P.step0 * P.factor ^ (P.btIter.toNat - 1) * L ≤ 1

theorem TSAdaptive.ok {P : TSArgs E} {f : E → ℝ} {g : E → E} {L : ℝ} (h : TSAdaptive P f g L) : TSOk P := ⟨h.factor, h.step⟩

/-- The steps of a run are at least this. -/
noncomputable def tsFloor (P : TSArgs E) (L : ℝ) : ℝ := min P.step0 (P.factor / L)

theorem TSAdaptive.floor_pos {P : TSArgs E} {f : E → ℝ} {g : E → E} {L : ℝ} (h : TSAdaptive P f g L) : 0 < tsFloor P L :=
  lt_min h.ok.step0_pos (div_pos h.factor h.lip)

/-- One iteration of a run. -/
theorem adaptive_step {P : TSArgs E} {f : E → ℝ} {g : E → E} {L : ℝ} (h : TSAdaptive P f g L) {G H : ExtFun E} (hE : ExactProx12 P G H) (k : ℕ)
    {s : ℝ} (hn : (tsIter P k).nan = false) (hs : (tsIter P k).step = some s) (hs0 : tsFloor P L ≤ s) (hs1 : s ≤ P.step0) :
    ∃ s' c, (tsIter P (k + 1)).nan = false ∧ (tsIter P (k + 1)).step = some s' ∧ tsFloor P L ≤ s' ∧ s' ≤ s ∧
      (tsIter P (k + 1)).certificate = some c ∧ 0 ≤ c ∧ ‖(tsIter P (k + 1)).x - (tsIter P k).z‖ = c * s' ∧
      IsProxPt G s' ((tsIter P k).z - s' • ((tsIter P k).u + g (tsIter P k).z)) (tsIter P (k + 1)).x ∧
      LSTest f g (tsIter P k).z (tsIter P (k + 1)).x (s') (lsSlack L) ∧
      (LSTest f g (tsIter P k).z (tsIter P (k + 1)).x (s') lsEps ∨ c < L / 10 ^ 7) ∧
      ∀ zs us, IsSubgrad H zs us → IsSubgrad G zs (-us - g zs) → ∀ e, 0 ≤ e → LSTest f g (tsIter P k).z (tsIter P (k + 1)).x (s') e →
        tsDist P zs us s' (k + 1) + (c * s') ^ 2 / (2 * (1 + 2 * s' * L)) ≤ tsDist P zs us s k + 2 * s' * e := by
  have hfl := h.floor_pos
  have hsp : 0 < s := lt_of_lt_of_le hfl hs0
  have hpow : 0 < P.factor ^ (P.btIter.toNat - 1) := pow_pos h.factor _
  obtain ⟨b1, b2, b3, b4, b5, b6⟩ := tsStep_adaptive h.fg h.lip h.upper h.factor h.factor_le (tsIter P k).z (tsIter P k).u hsp
    (le_trans (mul_le_mul_of_nonneg_right (mul_le_mul_of_nonneg_right hs1 hpow.le) h.lip.le) h.iters) h.search
  have heq := tsNext_eq hn hs b1.ne'
  simp only at heq
  rw [← tsIter_succ, h.growth, tsGrow_none] at heq
  set r := (tsStep P (tsIter P k).z (tsIter P k).u s).1 with hr
  have hstep : (tsIter P (k + 1)).step = some r.step := by rw [heq]
  have hxx : (tsIter P (k + 1)).x = r.x := by rw [heq]
  have hnn : (tsIter P (k + 1)).nan = false := by rw [heq]
  have hprox : IsProxPt G r.step ((tsIter P k).z - r.step • ((tsIter P k).u + g (tsIter P k).z)) r.x := by
    rw [b4]; exact hE.prox1 _ _ b1
  have hpt : (tsIter P (k + 1)).z + r.step • (tsIter P (k + 1)).u = r.x + r.step • (tsIter P k).u := by
    rw [heq]
    simp only
    rw [smul_add, smul_smul, mul_inv_cancel₀ b1.ne', one_smul]
    abel
  refine ⟨r.step, ‖r.x - (tsIter P k).z‖ / r.step, hnn, hstep, ?_, b2, by rw [heq], by positivity, by rw [hxx]; field_simp, by rw [hxx]; exact hprox, by rw [hxx]; exact b5, by rw [hxx]; exact b6,
    fun zs us hu hg e he hls => ?_⟩
  · rcases b3 with b3 | b3
    · rw [b3]; exact hs0
    · exact le_trans (min_le_right _ _) b3
  · have hA := adaptive_pair hE.convG h.lip b1 h.conv h.upper hg hprox (hxx ▸ hls) he
    have hsub := tsIter_subgrad h.ok hE.convH hE.prox2 hnn
    have hmono := hsub.mono hu
    have ee : (r.x - zs) + r.step • ((tsIter P k).u - us) = ((tsIter P (k + 1)).z - zs) + r.step • ((tsIter P (k + 1)).u - us) := by
      have : (r.x - zs) + r.step • ((tsIter P k).u - us) = (r.x + r.step • (tsIter P k).u) - zs - r.step • us := by module
      rw [this, ← hpt]; module
    rw [ee, norm_add_smul_sq, real_inner_comm] at hA
    have hm2 : 0 ≤ r.step * ⟪(tsIter P (k + 1)).u - us, (tsIter P (k + 1)).z - zs⟫_ℝ := mul_nonneg b1.le hmono
    have hdiv : ‖r.x - (tsIter P k).z‖ / r.step * r.step = ‖r.x - (tsIter P k).z‖ := div_mul_cancel₀ _ b1.ne'
    rw [hdiv]
    have hsq : r.step ^ 2 * ‖(tsIter P k).u - us‖ ^ 2 ≤ s ^ 2 * ‖(tsIter P k).u - us‖ ^ 2 :=
      mul_le_mul_of_nonneg_right (pow_le_pow_left₀ b1.le b2 2) (sq_nonneg _)
    unfold tsDist
    linarith

/-- The run as sequences of step sizes and certificates. -/
theorem adaptive_run {P : TSArgs E} {f : E → ℝ} {g : E → E} {L : ℝ} (h : TSAdaptive P f g L) {G H : ExtFun E} (hE : ExactProx12 P G H) :
    ∃ s c : ℕ → ℝ, s 0 = P.step0 ∧ ∀ k, (tsIter P k).nan = false ∧ (tsIter P k).step = some (s k) ∧ tsFloor P L ≤ s k ∧ s k ≤ P.step0 ∧ s (k + 1) ≤ s k ∧
      (tsIter P (k + 1)).certificate = some (c k) ∧ 0 ≤ c k ∧ ‖(tsIter P (k + 1)).x - (tsIter P k).z‖ = c k * s (k + 1) ∧
      IsProxPt G (s (k + 1)) ((tsIter P k).z - s (k + 1) • ((tsIter P k).u + g (tsIter P k).z)) (tsIter P (k + 1)).x ∧
      LSTest f g (tsIter P k).z (tsIter P (k + 1)).x (s (k + 1)) (lsSlack L) ∧
      (LSTest f g (tsIter P k).z (tsIter P (k + 1)).x (s (k + 1)) lsEps ∨ c k < L / 10 ^ 7) ∧
      ∀ zs us, IsSubgrad H zs us → IsSubgrad G zs (-us - g zs) → ∀ e, 0 ≤ e → LSTest f g (tsIter P k).z (tsIter P (k + 1)).x (s (k + 1)) e →
        tsDist P zs us (s (k + 1)) (k + 1) + (c k * s (k + 1)) ^ 2 / (2 * (1 + 2 * s (k + 1) * L)) ≤ tsDist P zs us (s k) k + 2 * s (k + 1) * e := by
  have key : ∀ k, (tsIter P k).nan = false ∧ ∃ s, (tsIter P k).step = some s ∧ tsFloor P L ≤ s ∧ s ≤ P.step0 := by
    intro k
    induction k with
    | zero => exact ⟨rfl, P.step0, rfl, min_le_left _ _, le_refl _⟩
    | succ k ih =>
      obtain ⟨hn, s, hs, h0, h1⟩ := ih
      obtain ⟨s', c, a1, a2, a3, a4, -⟩ := adaptive_step h hE k hn hs h0 h1
      exact ⟨a1, s', a2, a3, a4.trans h1⟩
  refine ⟨fun k => ((tsIter P k).step).getD 0, fun k => ((tsIter P (k + 1)).certificate).getD 0, rfl, fun k => ?_⟩
  obtain ⟨hn, s, hs, h0, h1⟩ := key k
  obtain ⟨s', c, a1, a2, a3, a4, a5, a6, a7, a8, a9, a10, a11⟩ := adaptive_step h hE k hn hs h0 h1
  simp only [hs, a2, a5, Option.getD_some]
  exact ⟨hn, trivial, h0, h1, a4, trivial, a6, a7, a8, a9, a10, a11⟩

/-- The guaranteed decrease of the distance by an iteration whose certificate is at least `tol`. -/
noncomputable def tsGain (L tol fl : ℝ) : ℝ := 2 * fl * (tol ^ 2 * fl / (4 * (1 + 2 * fl * L)) - lsEps)

theorem gain_le {L tol fl s c : ℝ} (hL : 0 < L) (hfl : 0 < fl) (hs : fl ≤ s) (htol : 0 ≤ tol) (hc : tol ≤ c) (hg : 0 < tsGain L tol fl) :
    tsGain L tol fl ≤ (c * s) ^ 2 / (2 * (1 + 2 * s * L)) - 2 * s * lsEps := by
  have hs0 : 0 < s := lt_of_lt_of_le hfl hs
  have h1 : fl / (1 + 2 * fl * L) ≤ s / (1 + 2 * s * L) := by
    rw [div_le_div_iff₀ (by positivity) (by positivity)]
    nlinarith
  have h2 : tol ^ 2 ≤ c ^ 2 := pow_le_pow_left₀ htol hc 2
  have h3 : tol ^ 2 * (fl / (1 + 2 * fl * L)) ≤ c ^ 2 * (s / (1 + 2 * s * L)) := mul_le_mul h2 h1 (by positivity) (by positivity)
  have e1 : tol ^ 2 * fl / (4 * (1 + 2 * fl * L)) = tol ^ 2 * (fl / (1 + 2 * fl * L)) / 4 := by field_simp
  have e2 : (c * s) ^ 2 / (2 * (1 + 2 * s * L)) - 2 * s * lsEps = 2 * s * (c ^ 2 * (s / (1 + 2 * s * L)) / 4 - lsEps) := by field_simp; ring
  unfold tsGain at hg ⊢
  rw [e1] at hg ⊢
  rw [e2]
  have h4 : 0 < tol ^ 2 * (fl / (1 + 2 * fl * L)) / 4 - lsEps := (pos_iff_pos_of_mul_pos hg).mp (by positivity)
  exact mul_le_mul (by linarith) (by linarith) h4.le (by positivity)

/-- **C107.** `minimize_three_split` with its line search, for any two proximal operators, any convex `f` with the quadratic upper
bound of constant `L`, any primal-dual solution `(zs, us)` and a tolerance above the noise of the line search (`L 1e-7` for the iterations that skip it, `0 < tsGain`
for the `LS_EPS` of the others): a run with more than `tsDist / tsGain + 1` iterations returns and reports success; the distance of the last iterate to the solution exceeds the initial one by
at most the slack of the first iteration. -/
theorem C107_converges {P : TSArgs E} {f : E → ℝ} {g : E → E} {L : ℝ} (h : TSAdaptive P f g L) {G H : ExtFun E} (hE : ExactProx12 P G H)
    {zs us : E} (hu : IsSubgrad H zs us) (hg : IsSubgrad G zs (-us - g zs)) (hcb : P.callback = none) (hbt : 0 < P.btIter) (htol : 0 < P.tol) (htL : L / 10 ^ 7 ≤ P.tol)
    (hgain : 0 < tsGain L P.tol (tsFloor P L))
    (hiter : tsDist P zs us P.step0 0 + 2 * P.step0 * lsSlack L < tsGain L P.tol (tsFloor P L) * (P.maxIter - 1)) :
    ∃ res c s, minimizeThreeSplit P = .ok res ∧ res.success = true ∧ 0 < res.nit ∧ res.certificate = some c ∧ 0 ≤ c ∧ c < P.tol ∧ res.stepSize = some s ∧
      tsFloor P L ≤ s ∧ s ≤ P.step0 ∧ res.x = some (tsIter P (res.nit + 1)).x ∧
      ‖(tsIter P res.nit).z - zs‖ ^ 2 ≤ tsDist P zs us P.step0 0 + 2 * P.step0 * lsSlack L ∧
      ‖(tsIter P (res.nit + 1)).x - (tsIter P res.nit).z‖ = c * s ∧
      IsProxPt G s ((tsIter P res.nit).z - s • ((tsIter P res.nit).u + g (tsIter P res.nit).z)) (tsIter P (res.nit + 1)).x ∧
      IsSubgrad H (tsIter P res.nit).z (tsIter P res.nit).u ∧
      LSTest f g (tsIter P res.nit).z (tsIter P (res.nit + 1)).x s (lsSlack L) := by
  obtain ⟨s, c, hs0, hrun⟩ := adaptive_run h hE
  have hfl := h.floor_pos
  have he := lsSlack_nonneg L
  have hst := h.ok.step0_pos
  have hV0 : 0 ≤ tsDist P zs us P.step0 0 := by unfold tsDist; positivity
  have hmi : 1 < P.maxIter := by
    by_contra hc
    push Not at hc
    have : (P.maxIter : ℝ) ≤ 1 := by exact_mod_cast hc
    have := mul_nonneg hgain.le (by linarith : 0 ≤ 1 - (P.maxIter : ℝ))
    have : 0 ≤ 2 * P.step0 * lsSlack L := by positivity
    linarith
  obtain ⟨res, hres⟩ := minimizeTS_total hbt (by omega : 0 < P.maxIter)
  obtain ⟨-, r2, r3, r4, r5, -, -, -, r9, r10, r11, r12, r13⟩ := minimizeTS_ok hres
  have hcbf : ∀ i, tsCallback P i (tsIter P (i + 1)) = false := fun i => by unfold tsCallback; rw [hcb]
  set A := tsDist P zs us P.step0 0 + 2 * P.step0 * lsSlack L with hA
  -- before the iteration that ends the loop
  have hdec : ∀ k, (∀ i, 0 < i → i < k + 1 → P.tol ≤ c i) → tsDist P zs us (s (k + 1)) (k + 1) + tsGain L P.tol (tsFloor P L) * k ≤ A := by
    intro k
    induction k with
    | zero =>
      intro _
      have h1 := (hrun 0).2.2.2.2.2.2.2.2.2.2.2 zs us hu hg _ he (hrun 0).2.2.2.2.2.2.2.2.2.1
      rw [hs0] at h1
      have h2 : 0 ≤ (c 0 * s (0 + 1)) ^ 2 / (2 * (1 + 2 * s (0 + 1) * L)) := by
        have := (hrun 1).2.2.1
        have h3 : 0 < s (0 + 1) := lt_of_lt_of_le hfl this
        have := h.lip
        positivity
      have h3 : 2 * s (0 + 1) * lsSlack L ≤ 2 * P.step0 * lsSlack L := by
        have := mul_le_mul_of_nonneg_right (hrun 1).2.2.2.1 he
        linarith
      rw [Nat.cast_zero, mul_zero, add_zero]
      linarith
    | succ k ih =>
      intro hc
      have h0 := ih fun i h1 h2 => hc i h1 (by omega)
      have hck := hc (k + 1) (by omega) (by omega)
      have h1 := (hrun (k + 1)).2.2.2.2.2.2.2.2.2.2.2 zs us hu hg lsEps (by unfold lsEps; positivity)
        ((hrun (k + 1)).2.2.2.2.2.2.2.2.2.2.1.resolve_right (by linarith))
      have h2 := gain_le h.lip hfl (hrun (k + 1 + 1)).2.2.1 htol.le (hc (k + 1) (by omega) (by omega)) hgain
      push_cast
      linarith
  have hnd : ∀ i, 0 < i → i < res.nit → P.tol ≤ c i := by
    intro i h0 hi
    by_contra hc
    push Not at hc
    exact (r10 i hi).2 ⟨h0, c i, (hrun i).2.2.2.2.2.1, hc⟩
  have hdn : ∀ s k, 0 ≤ tsDist P zs us s k := fun s k => by unfold tsDist; positivity
  have hsuc : res.why = .success := by
    rcases hw : res.why with _ | _ | _
    · have := r11.mp hw
      rw [hcbf] at this; cases this
    · rfl
    · exfalso
      have h1 := r13 hw
      have h2 : ¬tsDone P res.nit (tsIter P (res.nit + 1)) := fun hd => by
        have := r12.mpr ⟨hcbf _, hd⟩
        rw [hw] at this; cases this
      have h3 : ∀ i, 0 < i → i < res.nit + 1 → P.tol ≤ c i := by
        intro i h0 hi
        rcases Nat.lt_succ_iff_lt_or_eq.mp hi with hi | rfl
        · exact hnd i h0 hi
        · by_contra hc
          push Not at hc
          exact h2 ⟨h0, c _, (hrun _).2.2.2.2.2.1, hc⟩
      have h4 := hdec res.nit h3
      have h5 : (res.nit : ℝ) + 1 = P.maxIter := by exact_mod_cast h1
      have h6 := hdn (s (res.nit + 1)) (res.nit + 1)
      rw [← h5, add_sub_cancel_right] at hiter
      linarith
  obtain ⟨-, hn0, c', hc', hlt⟩ := r12.mp hsuc
  obtain ⟨b1, b2, b3, b4, b5, b6, b7, b8, b9, b10, b11, b12⟩ := hrun res.nit
  obtain ⟨d1, d2, d3, d4, -⟩ := hrun (res.nit + 1)
  rw [b6] at hc'
  cases hc'
  refine ⟨res, c res.nit, s (res.nit + 1), hres, r9.mpr hsuc, hn0, r4.trans b6, b7, hlt, r5.trans d2, d3, d4, by rw [r3, d1]; rfl, ?_, b8, b9, ?_, b10⟩
  · obtain ⟨j, hj⟩ := Nat.exists_eq_add_one_of_ne_zero hn0.ne'
    have h1 := hdec j fun i h1 h2 => hnd i h1 (by omega)
    rw [← hj] at h1
    have h2 : 0 ≤ tsGain L P.tol (tsFloor P L) * j := by positivity
    unfold tsDist at h1
    have : 0 ≤ s res.nit ^ 2 * ‖(tsIter P res.nit).u - us‖ ^ 2 := by positivity
    linarith
  · obtain ⟨j, hj⟩ := Nat.exists_eq_add_one_of_ne_zero hn0.ne'
    rw [hj] at b1 ⊢
    exact tsIter_subgrad h.ok hE.convH hE.prox2 b1

end Copt
