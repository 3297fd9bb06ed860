import Verif.Props.Minimisers
import Verif.Props.AcceleratedSearch
import Verif.Props.ThreeSplitAdaptive

/-! # C107 on the losses and penalties of the library -/

set_option linter.unusedSectionVars false

namespace Copt

open Spec

open scoped InnerProductSpace

variable {E : Type} [NormedAddCommGroup E] [InnerProductSpace ℝ E]

/-- **C107 (accuracy).** The same with a Lipschitz second penalty, from a primal minimiser alone. -/
theorem C107_solves [CompleteSpace E] {P : TSArgs E} {f : E → ℝ} {g : E → E} {L : ℝ} (hP : TSAdaptive P f g L) {G : ExtFun E} {h : E → ℝ}
    (hE : ExactProx12 P G ⟨Set.univ, h⟩) {l : ℝ} (hl : 0 ≤ l) (hlip : ∀ a b, h a - h b ≤ l * ‖a - b‖)
    {xs : E} (hxs : xs ∈ G.dom) (hmin : ∀ x ∈ G.dom, f xs + G.val xs + h xs ≤ f x + G.val x + h x) (hcb : P.callback = none) (hbt : 0 < P.btIter)
    (htol : 0 < P.tol) (htL : L / 10 ^ 7 ≤ P.tol) (hgain : 0 < tsGain L P.tol (tsFloor P L))
    (hiter : (‖P.x0 - xs‖ + 2 * P.step0 * l) ^ 2 + 2 * P.step0 * lsSlack L < tsGain L P.tol (tsFloor P L) * (P.maxIter - 1)) :
    ∃ res x, minimizeThreeSplit P = .ok res ∧ res.success = true ∧ res.x = some x ∧ x ∈ G.dom ∧
      f x + G.val x + h x - (f xs + G.val xs + h xs) ≤
        P.tol * (Real.sqrt ((‖P.x0 - xs‖ + 2 * P.step0 * l) ^ 2 + 2 * P.step0 * lsSlack L) + 2 * P.step0 * l) + lsSlack L := by
  have hcont : Continuous h := by
    have : LipschitzWith ⟨l, hl⟩ h := LipschitzWith.of_dist_le_mul fun a b => by
      rw [Real.dist_eq, dist_eq_norm, abs_le]
      have h1 := hlip a b
      have h2 := hlip b a
      rw [norm_sub_rev] at h2
      exact ⟨by show -(l * ‖a - b‖) ≤ _; linarith, h1⟩
    exact this.continuous
  obtain ⟨us, hus, hgs⟩ := exists_saddle (LinearMap.id : E →ₗ[ℝ] E) hE.convG hP.conv hP.upper hE.convH hcont hxs hmin
  have hus : IsSubgrad ⟨Set.univ, h⟩ xs us := hus
  have hgs : IsSubgrad G xs (-us - g xs) := hgs us fun x => rfl
  have hul := subgrad_norm_le hl hlip hus
  have hst := hP.ok.step0_pos
  have he := lsSlack_nonneg L
  have hV0 : tsDist P xs us P.step0 0 ≤ (‖P.x0 - xs‖ + 2 * P.step0 * l) ^ 2 := by
    have h1 : ‖(tsIter P 0).z - xs‖ ≤ ‖P.x0 - xs‖ + P.step0 * l := by
      have h3 := (hE.prox2 P.x0 P.step0 hst).nonexpansive hE.convH hst (hus.prox hst)
      refine h3.trans ?_
      rw [← sub_sub]
      refine (norm_sub_le _ _).trans ?_
      rw [norm_smul, Real.norm_eq_abs, abs_of_pos hst]
      have := mul_le_mul_of_nonneg_left hul hst.le
      linarith
    have h2 : ‖(tsIter P 0).u - us‖ ≤ l := by
      rw [show (tsIter P 0).u = 0 from rfl, zero_sub, norm_neg]; exact hul
    have h3 : ‖(tsIter P 0).z - xs‖ ^ 2 ≤ (‖P.x0 - xs‖ + P.step0 * l) ^ 2 := pow_le_pow_left₀ (norm_nonneg _) h1 2
    have h4 : P.step0 ^ 2 * ‖(tsIter P 0).u - us‖ ^ 2 ≤ P.step0 ^ 2 * l ^ 2 := mul_le_mul_of_nonneg_left (pow_le_pow_left₀ (norm_nonneg _) h2 2) (by positivity)
    have h5 : 0 ≤ ‖P.x0 - xs‖ * (P.step0 * l) := by positivity
    unfold tsDist
    nlinarith [mul_nonneg hst.le hl]
  obtain ⟨res, c, s, r1, r2, r3, r4, r5, r6, r7, r8, r9, r10, r11, r12, r13, r14, r15⟩ := C107_converges hP hE hus hgs hcb hbt htol htL hgain (lt_of_le_of_lt (by linarith) hiter)
  refine ⟨res, _, r1, r2, r10, r13.1, ?_⟩
  have hs : 0 < s := lt_of_lt_of_le hP.floor_pos r8
  have hR : ‖(tsIter P res.nit).z - xs‖ ≤ Real.sqrt ((‖P.x0 - xs‖ + 2 * P.step0 * l) ^ 2 + 2 * P.step0 * lsSlack L) :=
    Real.le_sqrt_of_sq_le (by linarith)
  set R := Real.sqrt ((‖P.x0 - xs‖ + 2 * P.step0 * l) ^ 2 + 2 * P.step0 * lsSlack L) with hRd
  have hR0 : 0 ≤ R := Real.sqrt_nonneg _
  have hug := subgrad_norm_le hl hlip r14
  have hp := (r13.subgrad hE.convG hs).2 xs hxs
  have hh := r14.2 xs trivial
  have hlz := hlip (tsIter P (res.nit + 1)).x (tsIter P res.nit).z
  have hcv := hP.conv (tsIter P res.nit).z xs
  clear_value R
  generalize (tsIter P (res.nit + 1)).x = x at *
  generalize (tsIter P res.nit).z = z at *
  generalize (tsIter P res.nit).u = u at *
  simp only at hh
  have e1 : s⁻¹ • (z - s • (u + g z) - x) = s⁻¹ • (z - x) - u - g z := by
    rw [show z - s • (u + g z) - x = (z - x) - s • (u + g z) by abel, smul_sub, smul_smul, inv_mul_cancel₀ hs.ne', one_smul]; abel
  rw [e1, inner_sub_left, inner_sub_left, inner_smul_left, conj_trivial] at hp
  -- everything in terms of the two displacements
  have i1 : ⟪u, xs - x⟫_ℝ = ⟪u, xs - z⟫_ℝ - ⟪u, x - z⟫_ℝ := by rw [← inner_sub_right]; congr 1; abel
  have i2 : ⟪g z, xs - x⟫_ℝ = ⟪g z, xs - z⟫_ℝ - ⟪g z, x - z⟫_ℝ := by rw [← inner_sub_right]; congr 1; abel
  have i3 : ⟪z - x, xs - x⟫_ℝ = ‖x - z‖ ^ 2 - ⟪z - x, z - xs⟫_ℝ := by
    rw [show xs - x = (z - x) - (z - xs) by abel, inner_sub_right, real_inner_self_eq_norm_sq, norm_sub_rev]
  have i4 : ⟪z - x, z - xs⟫_ℝ ≤ ‖x - z‖ * ‖z - xs‖ := by
    have := real_inner_le_norm (z - x) (z - xs)
    rwa [norm_sub_rev z x] at this
  have i5 : -⟪u, x - z⟫_ℝ ≤ l * ‖x - z‖ := by
    have h1 := abs_le.mp (abs_real_inner_le_norm u (x - z))
    have h2 := mul_le_mul_of_nonneg_right hug (norm_nonneg (x - z))
    linarith
  rw [i1, i2, i3] at hp
  unfold LSTest at r15
  rw [r12] at *
  have j1 : s⁻¹ * ((c * s) ^ 2 - ⟪z - x, z - xs⟫_ℝ) = c * c * s - s⁻¹ * ⟪z - x, z - xs⟫_ℝ := by field_simp
  have j2 : s⁻¹ * ⟪z - x, z - xs⟫_ℝ ≤ c * ‖z - xs‖ := by
    rw [inv_mul_le_iff₀ hs]
    linarith
  have j3 : (c * s) ^ 2 / (2 * s) = c * c * s / 2 := by field_simp
  rw [j1] at hp
  rw [j3] at r15
  have j4 : c * ‖z - xs‖ ≤ P.tol * R := mul_le_mul r6.le hR (norm_nonneg _) htol.le
  have j5 : l * (c * s) ≤ l * (P.tol * P.step0) := mul_le_mul_of_nonneg_left (mul_le_mul r6.le r9 hs.le htol.le) hl
  have j6 : 0 ≤ c * c * s := by positivity
  linarith

variable {n d : ℕ}

/-- With `step_size=None` the first step is at least `min 1000 (1/(5 L))` and at most `1000`. -/
theorem step0_default {P : TSArgs E} {f : E → ℝ} {g : E → E} (hfg : P.fg = fun x => (f x, g x)) (hst : P.stepSize = none) {L : ℝ}
    (hq : UpperQuad f g L) : min 1000 (1 / (5 * L)) ≤ P.step0 ∧ P.step0 ≤ 1000 := by
  have h1 := initLipschitz_ge f g P.x0
  have hlip := C28_smooth f g P.x0 hq
  have h0 := initLipschitz_pos (fun x => (f x, g x)) P.x0
  unfold TSArgs.step0
  rw [hst, hfg]
  simp only
  constructor
  · rcases le_max_iff.mp hlip with h | h
    · refine (min_le_left _ _).trans ?_
      rw [le_div_iff₀ h0]; norm_num at h ⊢; linarith
    · refine (min_le_right _ _).trans ?_
      exact one_div_le_one_div_of_le h0 h
  · rw [div_le_iff₀ h0]; norm_num at h1 ⊢; linarith

/-- A larger floor of the steps gives a larger decrease. -/
theorem gain_mono {L tol a b : ℝ} (hL : 0 < L) (ha : 0 < a) (hab : a ≤ b) (htol : 0 ≤ tol) (hg : 0 < tsGain L tol a) : tsGain L tol a ≤ tsGain L tol b := by
  refine (gain_le hL ha hab htol le_rfl hg).trans (le_of_eq ?_)
  have : 0 < b := lt_of_lt_of_le ha hab
  unfold tsGain
  field_simp
  ring

/-- **C107 (library).** `minimize_three_split(f.f_grad, x0, o1.prox, o2.prox, ...)` with its line search, with a squared or Huber loss (whose
values are exact), any data, any penalty or constraint as
first operator and any penalty with Lipschitz constant `l` as second one, any first step `step0` (given, or found by `init_lipschitz`), no callback and `xs` any
minimiser of `f + g + h`. -/
theorem C107_three_split (f : LossObj n d) (hf : f.Good) (he : f.Exact) {s : ℝ} (hs : IsLargestSingular f.mat s) (hL : 0 < f.lipschitz s)
    (o1 o2 : SplitObj d) (h1 : o1.Good) (h2 : o2.Good) {l : ℝ} (hl : o2.lip = some l) (P : TSArgs (EuclideanSpace ℝ (Fin d)))
    (hfg : P.fg = f.oracle) (hp1 : P.prox1 = some o1.proxE) (hp2 : P.prox2 = some o2.proxE) (hsearch : P.search = true) (hgrow : P.hLip = none)
    (hst : ∀ s, P.stepSize = some s → 0 < s) (hfac : 0 < P.factor) (hfac1 : P.factor ≤ 1) (hbi : P.step0 * P.factor ^ (P.btIter.toNat - 1) * f.lipschitz s ≤ 1)
    (hcb : P.callback = none) (hbt : 0 < P.btIter) (htol : 0 < P.tol) (htL : f.lipschitz s / 10 ^ 7 ≤ P.tol)
    {xs : EuclideanSpace ℝ (Fin d)} (hxs : xs ∈ o1.fn.dom)
    (hmin : ∀ x ∈ o1.fn.dom, f.fn xs + o1.fn.val xs + o2.fn.val xs ≤ f.fn x + o1.fn.val x + o2.fn.val x)
    (hgain : 0 < tsGain (f.lipschitz s) P.tol (tsFloor P (f.lipschitz s)))
    (hiter : (‖P.x0 - xs‖ + 2 * P.step0 * l) ^ 2 + 2 * P.step0 * lsSlack (f.lipschitz s) < tsGain (f.lipschitz s) P.tol (tsFloor P (f.lipschitz s)) * (P.maxIter - 1)) :
    ∃ res x, minimizeThreeSplit P = .ok res ∧ res.success = true ∧ res.x = some x ∧ x ∈ o1.fn.dom ∧
      f.fn x + o1.fn.val x + o2.fn.val x - (f.fn xs + o1.fn.val xs + o2.fn.val xs) ≤
        P.tol * (Real.sqrt ((‖P.x0 - xs‖ + 2 * P.step0 * l) ^ 2 + 2 * P.step0 * lsSlack (f.lipschitz s)) + 2 * P.step0 * l) + lsSlack (f.lipschitz s) := by
  obtain ⟨-, hconv, hq, -⟩ := C92_loss f hf hs
  obtain ⟨c1, q1, -⟩ := C102_prox_exact o1 h1
  obtain ⟨c2, q2, -, h3⟩ := C102_prox_exact o2 h2
  obtain ⟨hl0, e, hlip⟩ := h3 l hl
  have hE : ExactProx12 P o1.fn ⟨Set.univ, o2.fn.val⟩ := by
    refine ⟨c1, e ▸ c2, ?_, ?_⟩
    · unfold TSArgs.p1; rw [hp1]; exact q1
    · unfold TSArgs.p2; rw [hp2]; exact e ▸ q2
  have hA : TSAdaptive P f.fn f.gradE (f.lipschitz s) := ⟨fun x => by rw [hfg, LossObj.oracle_exact hf he], hconv, hL, hq, hsearch, hgrow, hst, hfac, hfac1, hbi⟩
  exact C107_solves hA hE hl0 hlip hxs hmin hcb hbt htol htL hgain hiter

theorem pow_default : (7 / 10 : ℝ) ^ ((100 : ℤ).toNat - 1) ≤ 1 / 10 ^ 15 := by
  have h1 : (7 / 10 : ℝ) ^ ((100 : ℤ).toNat - 1) = ((7 / 10) ^ 3) ^ 33 := by rw [← pow_mul]; rfl
  rw [h1]
  norm_num

/-- **C107 (defaults).** The call with the default `step_size=None, line_search=True, max_iter_backtracking=100, backtracking_factor=0.7, h_Lipschitz=None` and any
squared or Huber loss with `f.lipschitz ≤ 1e12`.  The smallest step is at least `fl = min 1000 (1/(5 f.lipschitz))`; for a tolerance with `1e-7 f.lipschitz ≤ tol` and
`6 LS_EPS < tol² fl`, and `max_iter` large enough, the run returns and reports success at a point whose objective exceeds the minimum by at most
`tol (√((‖x0 - xs‖ + 2000 l)² + 2000 e) + 2000 l) + e`, `e = max LS_EPS (f.lipschitz/2 1e-14)`. -/
theorem C107_default (f : LossObj n d) (hf : f.Good) (he : f.Exact) {s : ℝ} (hs : IsLargestSingular f.mat s) (hL : 0 < f.lipschitz s) (hL1 : f.lipschitz s ≤ 10 ^ 12)
    (o1 o2 : SplitObj d) (h1 : o1.Good) (h2 : o2.Good) {l : ℝ} (hl : o2.lip = some l) {x0 : EuclideanSpace ℝ (Fin d)} {tol : ℝ} {m : ℕ} {ls : Bool}
    (htol : 0 < tol) (htL : f.lipschitz s / 10 ^ 7 ≤ tol) (htE : 6 * lsEps < tol ^ 2 * min 1000 (1 / (5 * f.lipschitz s)))
    {xs : EuclideanSpace ℝ (Fin d)} (hxs : xs ∈ o1.fn.dom)
    (hmin : ∀ x ∈ o1.fn.dom, f.fn xs + o1.fn.val xs + o2.fn.val xs ≤ f.fn x + o1.fn.val x + o2.fn.val x)
    (hiter : (‖x0 - xs‖ + 2000 * l) ^ 2 + 2000 * lsSlack (f.lipschitz s) < tsGain (f.lipschitz s) tol (min 1000 (1 / (5 * f.lipschitz s))) * (m - 1)) :
    ∃ res x, minimizeThreeSplit ⟨f.oracle, x0, some o1.proxE, some o2.proxE, tol, m, none, ls, none, 100, 7 / 10, none⟩ = .ok res ∧ res.success = true ∧
      res.x = some x ∧ x ∈ o1.fn.dom ∧ f.fn x + o1.fn.val x + o2.fn.val x - (f.fn xs + o1.fn.val xs + o2.fn.val xs) ≤
        tol * (Real.sqrt ((‖x0 - xs‖ + 2000 * l) ^ 2 + 2000 * lsSlack (f.lipschitz s)) + 2000 * l) + lsSlack (f.lipschitz s) := by
  set P : TSArgs (EuclideanSpace ℝ (Fin d)) := ⟨f.oracle, x0, some o1.proxE, some o2.proxE, tol, m, none, ls, none, 100, 7 / 10, none⟩ with hP
  obtain ⟨-, -, hq, -⟩ := C92_loss f hf hs
  obtain ⟨hl0, -⟩ := (C102_prox_exact o2 h2).2.2.2 l hl
  obtain ⟨a1, a2⟩ := step0_default (P := P) (f := f.fn) (g := f.gradE) (LossObj.oracle_exact hf he) rfl hq
  set L := f.lipschitz s with hLd
  clear_value L
  have hst0 : 0 < P.step0 := lt_of_lt_of_le (lt_min (by norm_num) (by positivity)) a1
  have hfl : 0 < min 1000 (1 / (5 * L)) := lt_min (by norm_num) (by positivity)
  have hfl2 : min 1000 (1 / (5 * L)) ≤ tsFloor P L := by
    refine le_min a1 ((min_le_right _ _).trans ?_)
    show 1 / (5 * L) ≤ 7 / 10 / L
    rw [div_le_div_iff₀ (by positivity) hL]; nlinarith
  have hflL : min 1000 (1 / (5 * L)) * L ≤ 1 / 5 := by
    calc min 1000 (1 / (5 * L)) * L ≤ 1 / (5 * L) * L := mul_le_mul_of_nonneg_right (min_le_right _ _) hL.le
      _ = 1 / 5 := by field_simp
  set fl := min 1000 (1 / (5 * L)) with hfld
  clear_value fl
  have he0 : 0 < lsEps := by unfold lsEps; positivity
  have hg : 0 < tsGain L tol fl := by
    unfold tsGain
    have : lsEps < tol ^ 2 * fl / (4 * (1 + 2 * fl * L)) := by
      rw [lt_div_iff₀ (by positivity)]
      nlinarith
    have : 0 < tol ^ 2 * fl / (4 * (1 + 2 * fl * L)) - lsEps := by linarith
    positivity
  have hg2 := gain_mono hL hfl hfl2 htol.le hg
  have hsl := lsSlack_nonneg L
  have hm : (1 : ℝ) ≤ m := by
    by_contra hc
    push Not at hc
    have := mul_pos hg (by linarith : 0 < 1 - (m : ℝ))
    nlinarith [sq_nonneg (‖x0 - xs‖ + 2000 * l)]
  have hb : (‖x0 - xs‖ + 2 * P.step0 * l) ^ 2 + 2 * P.step0 * lsSlack L ≤ (‖x0 - xs‖ + 2000 * l) ^ 2 + 2000 * lsSlack L := by
    have b1 : 2 * P.step0 * l ≤ 2000 * l := mul_le_mul_of_nonneg_right (by linarith) hl0
    have b2 : 2 * P.step0 * lsSlack L ≤ 2000 * lsSlack L := mul_le_mul_of_nonneg_right (by linarith) hsl
    have b3 : (‖x0 - xs‖ + 2 * P.step0 * l) ^ 2 ≤ (‖x0 - xs‖ + 2000 * l) ^ 2 := pow_le_pow_left₀ (by positivity) (by linarith) 2
    linarith
  obtain ⟨res, x, r1, r2, r3, r4, r5⟩ := C107_three_split f hf he hs (hLd ▸ hL) o1 o2 h1 h2 hl P rfl rfl rfl (by show (ls || true) = true; simp) rfl (fun s h => by cases h)
    (by show (0 : ℝ) < 7 / 10; norm_num) (by show (7 / 10 : ℝ) ≤ 1; norm_num) (by
      show P.step0 * (7 / 10) ^ ((100 : ℤ).toNat - 1) * _ ≤ 1
      rw [← hLd]
      calc P.step0 * (7 / 10) ^ ((100 : ℤ).toNat - 1) * L ≤ 1000 * (1 / 10 ^ 15) * 10 ^ 12 :=
            mul_le_mul (mul_le_mul a2 pow_default (by positivity) (by norm_num)) hL1 hL.le (by positivity)
        _ = 1 := by norm_num) rfl (by show (0 : ℤ) < 100; norm_num) htol (hLd ▸ htL) hxs hmin (by rw [← hLd]; exact lt_of_lt_of_le hg hg2) (by
      rw [← hLd]
      refine lt_of_le_of_lt hb (hiter.trans_le ?_)
      exact mul_le_mul_of_nonneg_right hg2 (by linarith))
  rw [← hLd] at r5
  refine ⟨res, x, r1, r2, r3, r4, r5.trans ?_⟩
  have c1 := Real.sqrt_le_sqrt hb
  have c2 : 2 * P.step0 * l ≤ 2000 * l := mul_le_mul_of_nonneg_right (by linarith) hl0
  have c3 := mul_le_mul_of_nonneg_left (add_le_add c1 c2) htol.le
  have c4 : P.tol = tol := rfl
  have c5 : P.x0 = x0 := rfl
  rw [c4, c5]
  linarith

/-- Least squares on one sample with `alpha = 1/2` (`f.lipschitz = 51/2`), an l1 penalty and a fused lasso penalty, with every parameter of the call but `max_iter` and
`tol = 1e-5` at its default: from every starting point the run succeeds. -/
example (junk : (Fin 2 → ℝ) → ℝ → TV1D.Junk 2 ℝ) (x0 : EuclideanSpace ℝ (Fin 2)) :
    let f := LossObj.square ⟨fun _ : Fin 1 => ![3, 4], ![7], 1 / 2⟩
    ∃ m0 : ℕ, ∀ m ≥ m0, ∃ res x,
      minimizeThreeSplit ⟨f.oracle, x0, some (PenObj.l1Norm 1).proxE, some (PenObj.fusedLasso 2 junk).proxE, 1 / 10 ^ 5, m, none, true, none, 100, 7 / 10, none⟩ = .ok res ∧
      res.success = true ∧ res.x = some x := by
  have hl : (LossObj.square ⟨fun _ : Fin 1 => ![3, 4], ![7], 1 / 2⟩).lipschitz 5 = 51 / 2 := by
    show 5 * 5 / ((1 : ℕ) : ℝ) + 1 / 2 = 51 / 2
    norm_num
  have hgood : (LossObj.square ⟨fun _ : Fin 1 => (![3, 4] : Fin 2 → ℝ), ![7], 1 / 2⟩).Good := show (0 : ℝ) ≤ 1 / 2 by norm_num
  have h1 : (SplitObj.pen (d := 2) (.l1Norm 1)).Good := by show (0 : ℝ) ≤ 1; norm_num
  have h2 : (SplitObj.pen (d := 2) (.fusedLasso 2 junk)).Good := ⟨by norm_num, by norm_num⟩
  obtain ⟨xs, ⟨hx, hmin, -⟩, -⟩ := C104_three_split _ hgood largestSingular_example (by show (0 : ℝ) < 1 / 2; norm_num) (.pen (.l1Norm 1)) (.pen (.fusedLasso 2 junk))
    h1 h2 rfl
  have hE : lsEps ≤ 1 / 10 ^ 15 := by unfold lsEps; norm_num
  have hfl : min 1000 (1 / (5 * (51 / 2 : ℝ))) = 2 / 255 := by rw [min_eq_right (by norm_num)]; norm_num
  have hg : 0 < tsGain (51 / 2) (1 / 10 ^ 5) (2 / 255) := by
    unfold tsGain
    have : lsEps < (1 / 10 ^ 5 : ℝ) ^ 2 * (2 / 255) / (4 * (1 + 2 * (2 / 255) * (51 / 2))) := lt_of_le_of_lt hE (by norm_num)
    have : 0 < (1 / 10 ^ 5 : ℝ) ^ 2 * (2 / 255) / (4 * (1 + 2 * (2 / 255) * (51 / 2))) - lsEps := by linarith
    positivity
  obtain ⟨l, hlip⟩ : ∃ l, (SplitObj.pen (d := 2) (.fusedLasso 2 junk)).lip = some l := ⟨_, rfl⟩
  obtain ⟨m0, hm0⟩ := exists_nat_gt (((‖x0 - xs‖ + 2000 * l) ^ 2 + 2000 * lsSlack (51 / 2)) / tsGain (51 / 2) (1 / 10 ^ 5) (2 / 255))
  refine ⟨m0 + 1, fun m hm => ?_⟩
  obtain ⟨res, x, r1, r2, r3, -⟩ := C107_default _ hgood trivial largestSingular_example (by rw [hl]; norm_num) (by rw [hl]; norm_num) (.pen (.l1Norm 1))
    (.pen (.fusedLasso 2 junk)) h1 h2 hlip (x0 := x0) (tol := 1 / 10 ^ 5) (m := m) (ls := true) (by norm_num) (by rw [hl]; norm_num) (by
      rw [hl, hfl]
      exact lt_of_le_of_lt (mul_le_mul_of_nonneg_left hE (by norm_num)) (by norm_num)) hx hmin (by
      rw [hl, hfl]
      rw [div_lt_iff₀ hg] at hm0
      refine lt_of_lt_of_le hm0 ?_
      rw [mul_comm]
      refine mul_le_mul_of_nonneg_left ?_ hg.le
      have : (m0 : ℝ) + 1 ≤ m := by exact_mod_cast hm
      linarith)
  exact ⟨res, x, r1, r2, r3⟩

end Copt
