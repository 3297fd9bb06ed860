import Mathlib.Analysis.SpecificLimits.Basic
import Verif.Proof.ThreeSplit

/-! # Properties C51, C52, C74: three operator splitting -/

set_option linter.unusedSectionVars false

namespace Copt

open Spec

open scoped InnerProductSpace

variable {E : Type} [NormedAddCommGroup E] [InnerProductSpace ℝ E]

/-- The two nonsmooth terms are convex and their proximal operators exact. -/
structure ExactProx12 (P : TSArgs E) (G H : ExtFun E) : Prop where
  convG : G.IsConvex
  convH : H.IsConvex
  prox1 : IsProxOf G P.p1
  prox2 : IsProxOf H P.p2

/-- **C51.** Success of `minimize_three_split`, whatever the line search did: with `x` the returned point, `z` the point where the gradient was
taken and `s` the step size of the last iteration, `‖x - z‖ = c s` where `c < tol` is the reported certificate, and there are subgradients `p` of
`g` at `x` and `q` of `h` at `z` with `‖∇f(z) + p + q‖ ≤ c`.  If `c = 0` and `f` is convex then `x` minimises `f + g + h`. -/
theorem C51_success {P : TSArgs E} {G H : ExtFun E} (hP : TSOk P) (hf1 : P.factor ≤ 1) (hE : ExactProx12 P G H) {res : TSResult E}
    (h : minimizeThreeSplit P = .ok res) (hs : res.success = true) :
    ∃ x c e pre p q, res.x = some x ∧ res.certificate = some c ∧ res.log = pre ++ [e] ∧ e.x = x ∧ 0 < e.step ∧ c < P.tol ∧
      ‖x - e.z‖ = c * e.step ∧ IsSubgrad G x p ∧ IsSubgrad H e.z q ∧ ‖(P.fg e.z).2 + p + q‖ ≤ c ∧
      (c = 0 → ∀ f : E → ℝ, ConvexGrad f (fun y => (P.fg y).2) →
        x ∈ G.dom ∧ x ∈ H.dom ∧ ∀ y ∈ G.dom, y ∈ H.dom → f x + G.val x + H.val x ≤ f y + G.val y + H.val y) := by
  obtain ⟨-, -, hx, hc, -, hl, -, -, hsw, -, -, hw, -⟩ := minimizeTS_ok h
  obtain ⟨-, hit, c, hc', hlt⟩ := hw.mp (hsw.mp hs)
  obtain ⟨hn, s, hst, hpos⟩ := tsIter_cert hP hc'
  obtain ⟨k, hk⟩ := Nat.exists_eq_add_one_of_ne_zero hit.ne'
  have hq := tsIter_subgrad hP hE.convH hE.prox2 (k := k) (by rw [← hk]; exact hn)
  rw [← hk] at hq
  obtain ⟨a, b, hpx, hle, -⟩ := tsStep_spec hP.factor (tsIter P res.nit).z (tsIter P res.nit).u hpos
  have heq := tsNext_eq hn hst b.ne'
  simp only at heq
  rw [← tsIter_succ] at heq
  set r := (tsStep P (tsIter P res.nit).z (tsIter P res.nit).u s).1 with hr
  set z := (tsIter P res.nit).z with hz
  set u := (tsIter P res.nit).u with hu
  have hpr := hE.prox1 (z - r.used • (u + (P.fg z).2)) r.used a
  rw [← hpx] at hpr
  have hp := hpr.subgrad hE.convG a
  rw [heq] at hx hc hl hc'
  have hcv : ‖r.x - z‖ / r.step = c := Option.some.inj hc'
  have hsum : (P.fg z).2 + r.used⁻¹ • (z - r.used • (u + (P.fg z).2) - r.x) + u = r.used⁻¹ • (z - r.x) := by
    rw [show z - r.used • (u + (P.fg z).2) - r.x = (z - r.x) - r.used • (u + (P.fg z).2) by abel, smul_sub, smul_smul,
      inv_mul_cancel₀ a.ne', one_smul]
    abel
  have hcn : 0 ≤ c := by rw [← hcv]; positivity
  have hres : ‖r.x - z‖ = c * r.step := by rw [← hcv, div_mul_cancel₀ _ b.ne']
  refine ⟨r.x, c, _, _, _, u, by rw [hx]; simp, by rw [hc, hcv], hl, rfl, b, hlt, hres, hp, hq, ?_, fun h0 f hf => ?_⟩
  · rw [hsum, norm_smul, Real.norm_eq_abs, abs_of_pos (inv_pos.mpr a), norm_sub_rev, hres]
    have := (hle hf1).1
    rw [inv_mul_le_iff₀ a]
    nlinarith
  · rw [h0, zero_mul] at hres
    have hxz : r.x = z := sub_eq_zero.mp (norm_eq_zero.mp hres)
    have hp' := hp
    rw [hxz] at hp' ⊢
    refine ⟨hp'.1, hq.1, fun y hyG hyH => ?_⟩
    have h1 := hp'.2 y hyG
    have h2 := hq.2 y hyH
    have h3 := hf z y
    have h4 : ⟪(P.fg z).2, y - z⟫_ℝ + ⟪r.used⁻¹ • (z - r.used • (u + (P.fg z).2) - z), y - z⟫_ℝ + ⟪u, y - z⟫_ℝ = 0 := by
      rw [← inner_add_left, ← inner_add_left]
      rw [hxz] at hsum
      rw [hsum, sub_self, smul_zero, inner_zero_left]
    linarith

/-! ### C52 -/

/-- **C52 (accounting).** `nit < max_iter`; success is reported only from the second iteration on, and exactly when the certificate is below
`tol` and the callback did not stop the run; a callback that returns `False` at an iteration that is reached stops the run there; the run
otherwise ends at `max_iter`. -/
theorem C52_accounting {P : TSArgs E} {res : TSResult E} (h : minimizeThreeSplit P = .ok res) :
    res.nit < P.maxIter ∧
    (res.success = true ↔ res.why ≠ .callback ∧ 0 < res.nit ∧ ∃ c, res.certificate = some c ∧ c < P.tol) ∧
    (∀ cb, P.callback = some cb → (res.why = .callback ↔ cb res.nit (tsIter P (res.nit + 1)) = true) ∧
      ∀ i < res.nit, cb i (tsIter P (i + 1)) = false) ∧
    (P.callback = none → res.why ≠ .callback) ∧ (res.why = .callback → res.success = false) ∧
    (res.success = false → res.why ≠ .callback → res.nit + 1 = P.maxIter) := by
  obtain ⟨-, h1, -, hc, -, -, -, -, hsw, hi, hcb, hw, hex⟩ := minimizeTS_ok h
  have hcall : ∀ cb, P.callback = some cb → ∀ i st, tsCallback P i st = cb i st := by
    intro cb h i st; unfold tsCallback; rw [h]
  refine ⟨h1, ?_, fun cb h => ⟨?_, fun i hlt => ?_⟩, fun h hw' => ?_, fun h => ?_, fun h h' => hex ?_⟩
  · rw [hsw, hw, ne_eq, hcb]
    unfold tsDone
    rw [hc]
    simp
  · rw [hcb, hcall cb h]
  · rw [← hcall cb h]; exact (hi i hlt).1
  · rw [hcb] at hw'
    unfold tsCallback at hw'
    rw [h] at hw'; cases hw'
  · cases hs : res.success with
    | false => rfl
    | true => rw [hsw.mp hs] at h; cases h
  · cases hwy : res.why with
    | callback => exact absurd hwy h'
    | success => rw [hsw.mpr hwy] at h; cases h
    | exhausted => rfl

/-- **C52.** Argument validation, and the error of a run without iterations. -/
theorem C52_errors (P : TSArgs E) : (P.btIter ≤ 0 → minimizeThreeSplit P = .error .valueError) ∧
    (0 < P.btIter → P.maxIter = 0 → minimizeThreeSplit P = .error .unboundLocalError) ∧
    (0 < P.btIter → 0 < P.maxIter → ∃ res, minimizeThreeSplit P = .ok res) := by
  refine ⟨fun h => ?_, fun h h' => ?_, minimizeTS_total⟩
  · unfold minimizeThreeSplit; rw [if_pos h]
  · unfold minimizeThreeSplit; rw [if_neg (by omega), h']

/-- **C52.** Without a `step_size` the flag `line_search` has no effect: the line search always runs. -/
theorem C52_forced_line_search (P : TSArgs E) (h : P.stepSize = none) :
    minimizeThreeSplit { P with lineSearch := false } = minimizeThreeSplit { P with lineSearch := true } := by
  have e : ∀ b, ({ P with lineSearch := b } : TSArgs E).search = true := by intro b; simp [TSArgs.search, h]
  have e0 : ∀ z u s, tsStep { P with lineSearch := false } z u s = tsStep { P with lineSearch := true } z u s := by
    intro z u s
    unfold tsStep
    simp only [e]
    rfl
  have e1 : ∀ st, tsNext { P with lineSearch := false } st = tsNext { P with lineSearch := true } st := by
    intro st
    unfold tsNext
    simp only [e0]
    rfl
  have e2 : ∀ rem it st, tsLoop { P with lineSearch := false } rem it st = tsLoop { P with lineSearch := true } rem it st := by
    intro rem
    induction rem with
    | zero => intro it st; rw [tsLoop, tsLoop]; rw [e1 st]; rfl
    | succ rem ih => intro it st; rw [tsLoop, tsLoop]; rw [e1 st, ih]; rfl
  unfold minimizeThreeSplit
  simp only [e2]
  rfl

/-- **C52.** Without `h_Lipschitz`, and for a factor in `(0, 1]`, the step size never grows: along the run the recorded step sizes are
non-increasing, bounded by the initial one, and the reported step size is the last of them. -/
theorem C52_step_shrinks {P : TSArgs E} (hP : TSOk P) (hf1 : P.factor ≤ 1) (hh : P.hLip = none) {res : TSResult E}
    (h : minimizeThreeSplit P = .ok res) :
    res.log.Pairwise (fun a b => b.step ≤ a.step) ∧ (∀ e ∈ res.log, 0 < e.step ∧ e.step ≤ P.step0) ∧
      ∃ pre e, res.log = pre ++ [e] ∧ res.stepSize = some e.step ∧ pre.length = res.nit := by
  have key : ∀ k, (tsIter P k).nan = false ∧ ∃ s, (tsIter P k).step = some s ∧ 0 < s ∧ s ≤ P.step0 ∧
      (tsIter P k).log.Pairwise (fun a b => b.step ≤ a.step) ∧ (∀ e ∈ (tsIter P k).log, s ≤ e.step ∧ e.step ≤ P.step0) ∧
      (tsIter P k).log.length = k ∧ (0 < k → ∃ pre e, (tsIter P k).log = pre ++ [e] ∧ e.step = s) := by
    intro k
    induction k with
    | zero => exact ⟨rfl, P.step0, rfl, hP.step0_pos, le_refl _, List.Pairwise.nil, by simp [tsIter, tsInit], rfl, by simp⟩
    | succ k ih =>
      obtain ⟨hn, s, hs, hpos, hle, hpw, hall, hlen, -⟩ := ih
      obtain ⟨a, b, -, hss, -⟩ := tsStep_spec hP.factor (tsIter P k).z (tsIter P k).u hpos
      have hss' := hss hf1
      rw [tsIter_succ, tsNext_eq hn hs b.ne', hh]
      simp only [tsGrow_none]
      refine ⟨trivial, _, rfl, b, by linarith, ?_, ?_, by simp [hlen], fun _ => ⟨_, _, rfl, rfl⟩⟩
      · rw [List.pairwise_append]
        refine ⟨hpw, List.pairwise_singleton _ _, fun e he e' he' => ?_⟩
        rw [List.mem_singleton] at he'
        subst he'
        have := (hall e he).1
        simp only
        linarith
      · intro e he
        rw [List.mem_append, List.mem_singleton] at he
        rcases he with he | rfl
        · have := hall e he
          exact ⟨by linarith, this.2⟩
        · exact ⟨le_refl _, by simp only; linarith⟩
  obtain ⟨-, -, -, -, hst, hl, -⟩ := minimizeTS_ok h
  obtain ⟨hn, s, hs, hpos, hle, hpw, hall, hlen, hlast⟩ := key (res.nit + 1)
  obtain ⟨pre, e, he, hes⟩ := hlast (by omega)
  rw [hl]
  refine ⟨hpw, fun e he => ⟨by have := (hall e he).1; linarith, (hall e he).2⟩, pre, e, he, by rw [hst, hs, hes], ?_⟩
  rw [he] at hlen
  simp at hlen
  exact hlen

/-! ### C74 -/

/-- One step of the scheme from two pairs `(z, u)` with `u` a subgradient of `h` at `z`. -/
theorem davis_yin_pair {G H : ExtFun E} (hG : G.IsConvex) {f : E → ℝ} {g : E → E} {L s : ℝ} (hL : 0 < L) (hs : 0 < s)
    (hf : ConvexGrad f g) (hq : UpperQuad f g L) {z u x z' u' x' : E} (hu : IsSubgrad H z u) (hu' : IsSubgrad H z' u')
    (hx : IsProxPt G s (z - s • (u + g z)) x) (hx' : IsProxPt G s (z' - s • (u' + g z')) x') :
    ‖(x + s • u) - (x' + s • u')‖ ^ 2 ≤ ‖(z + s • u) - (z' + s • u')‖ ^ 2 - (1 - s * L / 2) * ‖(x - z) - (x' - z')‖ ^ 2 := by
  set e := z - z' with he
  set d := (x - z) - (x' - z') with hd
  set v := u - u' with hv
  set D := g z - g z' with hD
  have h1 := hx.firm hG hs hx'
  have e1 : (z - s • (u + g z)) - (z' - s • (u' + g z')) = e - s • v - s • D := by
    rw [he, hv, hD]; module
  have e2 : x - x' = e + d := by rw [he, hd]; abel
  rw [e1, e2] at h1
  have h2 : 0 ≤ ⟪v, e⟫_ℝ := hu.mono hu'
  have h3 : 1 / L * ‖D‖ ^ 2 ≤ ⟪D, e⟫_ℝ := cocoercive hL hf hq z z'
  have e3 : (x + s • u) - (x' + s • u') = (e + d) + s • v := by rw [← e2, hv]; module
  have e4 : (z + s • u) - (z' + s • u') = e + s • v := by rw [he, hv]; module
  have h4 : 0 ≤ 1 / L * ‖D‖ ^ 2 + ⟪D, d⟫_ℝ + L / 4 * ‖d‖ ^ 2 := by
    have h5 : 0 ≤ ‖D + (L / 2) • d‖ ^ 2 := sq_nonneg _
    rw [norm_add_smul_sq] at h5
    have h6 : 1 / L * (‖D‖ ^ 2 + 2 * (L / 2) * ⟪D, d⟫_ℝ + (L / 2) ^ 2 * ‖d‖ ^ 2) =
        1 / L * ‖D‖ ^ 2 + ⟪D, d⟫_ℝ + L / 4 * ‖d‖ ^ 2 := by field_simp; ring
    rw [← h6]
    positivity
  rw [e3, e4, norm_add_smul_sq, norm_add_smul_sq]
  rw [inner_sub_left, inner_sub_left, inner_smul_left, inner_smul_left] at h1
  simp only [conj_trivial, inner_add_right, inner_add_left, real_inner_self_eq_norm_sq, norm_add_sq_real] at h1 ⊢
  have h7 : 0 ≤ s * ⟪v, e⟫_ℝ := by positivity
  have h8 : s * (1 / L * ‖D‖ ^ 2) ≤ s * ⟪D, e⟫_ℝ := mul_le_mul_of_nonneg_left h3 hs.le
  have h9 : 0 ≤ s * (1 / L * ‖D‖ ^ 2 + ⟪D, d⟫_ℝ + L / 4 * ‖d‖ ^ 2) := by positivity
  have e5 : ⟪e, v⟫_ℝ = ⟪v, e⟫_ℝ := real_inner_comm _ _
  have e6 : ⟪d, v⟫_ℝ = ⟪v, d⟫_ℝ := real_inner_comm _ _
  rw [e5, e6]
  nlinarith

/-- An iteration with a fixed step. -/
theorem tsIter_fixed {P : TSArgs E} {s : ℝ} (hs : 0 < s) (hls : P.lineSearch = false) (hst : P.stepSize = some s) (k : ℕ) :
    (tsIter P k).nan = false ∧ (tsIter P k).step = some s ∧
    (tsIter P (k + 1)).x = P.p1 ((tsIter P k).z - s • ((tsIter P k).u + (P.fg (tsIter P k).z).2)) s ∧
    (tsIter P (k + 1)).z + s • (tsIter P (k + 1)).u = (tsIter P (k + 1)).x + s • (tsIter P k).u ∧
    (tsIter P (k + 1)).certificate = some (‖(tsIter P (k + 1)).x - (tsIter P k).z‖ / s) := by
  have hsearch : P.search = false := by simp [TSArgs.search, hls, hst]
  have hstep : ∀ z u, tsStep P z u s = (⟨P.p1 (z - s • (u + (P.fg z).2)) s, s, s, 0, true⟩, false) := by
    intro z u
    unfold tsStep
    simp only [hsearch, Bool.and_false, if_neg (show ¬(false = true) by simp)]
  have key : (tsIter P k).nan = false ∧ (tsIter P k).step = some s := by
    induction k with
    | zero => exact ⟨rfl, by show some P.step0 = _; unfold TSArgs.step0; rw [hst]⟩
    | succ k ih =>
      rw [tsIter_succ, tsNext_eq ih.1 ih.2 (by rw [hstep]; exact hs.ne')]
      simp only [hstep, tsGrow_nols]
      exact ⟨trivial, trivial⟩
  refine ⟨key.1, key.2, ?_⟩
  rw [tsIter_succ, tsNext_eq key.1 key.2 (by rw [hstep]; exact hs.ne')]
  simp only [hstep]
  refine ⟨trivial, ?_, trivial⟩
  generalize P.p1 ((tsIter P k).z - s • ((tsIter P k).u + (P.fg (tsIter P k).z).2)) s = x
  rw [smul_add, smul_smul, mul_inv_cancel₀ hs.ne', one_smul]
  abel

/-- The internal point `z + step * u` after `k` iterations. -/
noncomputable def tsPoint (P : TSArgs E) (s : ℝ) (k : ℕ) : E := (tsIter P k).z + s • (tsIter P k).u

/-- **C74.** Convex `f` with quadratic upper bound `L`, convex `g` and `h` with exact proximal operators, `line_search=False` and a step
`0 < s < 2/L` (in particular `s ≤ 1/L`).  For every primal-dual solution `(z*, u*)`: the distance of the internal point after each
iteration to `z* + s u*` never increases; the certificate never increases from the second iteration on, its square is at most
`‖w_1 - w*‖²/((1 - s L/2) s² k)` at iteration `k`, and it tends to zero; so a run with `tol > 0`, no callback and enough iterations reports
success. -/
theorem C74_converges {P : TSArgs E} {G H : ExtFun E} (hE : ExactProx12 P G H) {f : E → ℝ} {g : E → E} (hgz : ∀ x, (P.fg x).2 = g x)
    (hf : ConvexGrad f g) {L s : ℝ} (hL : 0 < L) (hq : UpperQuad f g L) (hs : 0 < s) (hsL : s * L < 2) (hls : P.lineSearch = false)
    (hst : P.stepSize = some s) (hfac : 0 < P.factor) {zs us : E} (hu : IsSubgrad H zs us) (hg : IsSubgrad G zs (-us - g zs)) :
    (∀ k, 1 ≤ k → ‖tsPoint P s (k + 1) - (zs + s • us)‖ ≤ ‖tsPoint P s k - (zs + s • us)‖) ∧
    ∃ c : ℕ → ℝ, (∀ k, (tsIter P (k + 1)).certificate = some (c k)) ∧ (∀ k, 1 ≤ k → c (k + 1) ≤ c k) ∧
      (∀ k, 1 ≤ k → c k ^ 2 ≤ ‖tsPoint P s 1 - (zs + s • us)‖ ^ 2 / ((1 - s * L / 2) * s ^ 2 * k)) ∧
      Filter.Tendsto c Filter.atTop (nhds 0) ∧
      (∀ res, minimizeThreeSplit P = .ok res → P.callback = none → 0 < P.tol →
        ‖tsPoint P s 1 - (zs + s • us)‖ ^ 2 < P.tol ^ 2 * ((1 - s * L / 2) * s ^ 2 * (P.maxIter - 1)) → res.success = true) := by
  have hP : TSOk P := ⟨hfac, fun s' h => by rw [hst] at h; cases h; exact hs⟩
  have hfix := tsIter_fixed hs hls hst
  set α := 1 - s * L / 2 with hα
  have hα0 : 0 < α := by rw [hα]; linarith
  -- the data of iteration k >= 1
  have hsub : ∀ k, 1 ≤ k → IsSubgrad H (tsIter P k).z (tsIter P k).u := by
    intro k hk
    obtain ⟨j, rfl⟩ := Nat.exists_eq_add_one_of_ne_zero (by omega : k ≠ 0)
    exact tsIter_subgrad hP hE.convH hE.prox2 (hfix (j + 1)).1
  have hprox : ∀ k, IsProxPt G s ((tsIter P k).z - s • ((tsIter P k).u + g (tsIter P k).z)) (tsIter P (k + 1)).x := by
    intro k
    rw [(hfix k).2.2.1, hgz]
    exact hE.prox1 _ _ hs
  have hpt : ∀ k, tsPoint P s (k + 1) = (tsIter P (k + 1)).x + s • (tsIter P k).u := fun k => (hfix k).2.2.2.1
  have hdiff : ∀ k, tsPoint P s (k + 1) - tsPoint P s k = (tsIter P (k + 1)).x - (tsIter P k).z := by
    intro k
    rw [hpt, tsPoint]
    abel
  have hproxs : IsProxPt G s (zs - s • (us + g zs)) zs := by
    have := hg.prox hs
    convert this using 1
    module
  -- distance to the fixed point
  have hfej : ∀ k, 1 ≤ k → ‖tsPoint P s (k + 1) - (zs + s • us)‖ ^ 2 ≤
      ‖tsPoint P s k - (zs + s • us)‖ ^ 2 - α * ‖(tsIter P (k + 1)).x - (tsIter P k).z‖ ^ 2 := by
    intro k hk
    have h := davis_yin_pair hE.convG hL hs hf hq (hsub k hk) hu (hprox k) hproxs
    rw [sub_self, sub_zero] at h
    rw [hpt]
    exact h
  have hmono : ∀ k, 1 ≤ k → ‖(tsIter P (k + 2)).x - (tsIter P (k + 1)).z‖ ≤ ‖(tsIter P (k + 1)).x - (tsIter P k).z‖ := by
    intro k hk
    have h := davis_yin_pair hE.convG hL hs hf hq (hsub (k + 1) (by omega)) (hsub k hk) (hprox (k + 1)) (hprox k)
    rw [← hpt, ← hpt] at h
    change ‖tsPoint P s (k + 1 + 1) - tsPoint P s (k + 1)‖ ^ 2 ≤ ‖tsPoint P s (k + 1) - tsPoint P s k‖ ^ 2 - α * _ at h
    rw [hdiff, hdiff] at h
    refine le_of_sq_le_sq (h.trans ?_) (norm_nonneg _)
    have := mul_nonneg hα0.le (sq_nonneg ‖(tsIter P (k + 1 + 1)).x - (tsIter P (k + 1)).z - ((tsIter P (k + 1)).x - (tsIter P k).z)‖)
    linarith
  set D := ‖tsPoint P s 1 - (zs + s • us)‖ ^ 2 with hD
  set c : ℕ → ℝ := fun k => ‖(tsIter P (k + 1)).x - (tsIter P k).z‖ / s with hc
  have hc0 : ∀ k, 0 ≤ c k := fun k => by rw [hc]; positivity
  have hcm : ∀ k, 1 ≤ k → c (k + 1) ≤ c k := fun k hk => div_le_div_of_nonneg_right (hmono k hk) hs.le
  have hcd : ∀ k, ‖(tsIter P (k + 1)).x - (tsIter P k).z‖ = s * c k := fun k => by rw [hc]; field_simp
  have hsum : ∀ k, α * s ^ 2 * (k * c (k + 1) ^ 2) + ‖tsPoint P s (k + 1) - (zs + s • us)‖ ^ 2 ≤ D := by
    intro k
    induction k with
    | zero => simp [hD]
    | succ k ih =>
      have h1 := hfej (k + 1) (by omega)
      have h2 := hcm (k + 1) (by omega)
      rw [hcd] at h1
      have h3 : c (k + 1 + 1) ^ 2 ≤ c (k + 1) ^ 2 := pow_le_pow_left₀ (hc0 _) h2 2
      have h4 : ((k : ℝ) + 1) * c (k + 1 + 1) ^ 2 ≤ k * c (k + 1) ^ 2 + c (k + 1) ^ 2 := by
        have : (0 : ℝ) ≤ k := Nat.cast_nonneg k
        nlinarith
      have h5 := mul_le_mul_of_nonneg_left h4 (show 0 ≤ α * s ^ 2 by positivity)
      push_cast
      nlinarith
  have hrate : ∀ k, 1 ≤ k → α * s ^ 2 * (k * c k ^ 2) ≤ D := by
    intro k hk
    obtain ⟨j, rfl⟩ := Nat.exists_eq_add_one_of_ne_zero (by omega : k ≠ 0)
    have h1 := hfej (j + 1) hk
    have h2 := hsum j
    rw [hcd] at h1
    push_cast
    nlinarith [sq_nonneg ‖tsPoint P s (j + 1 + 1) - (zs + s • us)‖]
  have hrate' : ∀ k, 1 ≤ k → c k ^ 2 ≤ D / (α * s ^ 2 * k) := by
    intro k hk
    have hk' : (0 : ℝ) < k := by exact_mod_cast hk
    rw [le_div_iff₀ (by positivity)]
    have := hrate k hk
    nlinarith
  have hcert : ∀ k, (tsIter P (k + 1)).certificate = some (c k) := fun k => (hfix k).2.2.2.2
  refine ⟨fun k hk => ?_, c, hcert, hcm, hrate', ?_, fun res h hcb ht hbig => ?_⟩
  · refine le_of_sq_le_sq ((hfej k hk).trans ?_) (norm_nonneg _)
    have := mul_nonneg hα0.le (sq_nonneg ‖(tsIter P (k + 1)).x - (tsIter P k).z‖)
    linarith
  · have h1 : Filter.Tendsto (fun k : ℕ => D / (α * s ^ 2) * (1 / (k : ℝ))) Filter.atTop (nhds 0) := by
      have := (tendsto_one_div_atTop_nhds_zero_nat (𝕜 := ℝ)).const_mul (D / (α * s ^ 2))
      rwa [mul_zero] at this
    have h2 : Filter.Tendsto (fun k => c k ^ 2) Filter.atTop (nhds 0) := by
      refine tendsto_of_tendsto_of_tendsto_of_le_of_le' tendsto_const_nhds h1 (Filter.Eventually.of_forall fun k => sq_nonneg _) ?_
      filter_upwards [Filter.eventually_ge_atTop 1] with k hk
      refine (hrate' k hk).trans (le_of_eq ?_)
      rw [div_mul_eq_mul_div, mul_one_div, div_div, mul_comm (k : ℝ)]
    have h3 := h2.sqrt
    rw [Real.sqrt_zero] at h3
    refine h3.congr fun k => Real.sqrt_sq (hc0 k)
  · obtain ⟨hn, hsuc, -, hnone, -, hex⟩ := C52_accounting h
    by_contra hns
    have hns' : res.success = false := by simpa using hns
    have hm := hex hns' (hnone hcb)
    have hcr : res.certificate = some (c res.nit) := by
      rw [(minimizeTS_ok h).2.2.2.1]; exact hcert _
    have hmr : (P.maxIter : ℝ) - 1 = res.nit := by rw [← hm]; push_cast; ring
    rw [hmr] at hbig
    rcases Nat.eq_zero_or_pos res.nit with h0 | hpos
    · rw [h0, Nat.cast_zero, mul_zero, mul_zero] at hbig
      exact absurd hbig (not_lt.mpr (sq_nonneg _))
    · have hlt : P.tol ≤ c res.nit := by
        by_contra hlt
        push Not at hlt
        rw [hsuc.mpr ⟨hnone hcb, hpos, _, hcr, hlt⟩] at hns'
        cases hns'
      have h1 := hrate res.nit hpos
      have h2 : P.tol ^ 2 ≤ c res.nit ^ 2 := pow_le_pow_left₀ ht.le hlt 2
      have h3 : (0 : ℝ) < res.nit := by exact_mod_cast hpos
      have h4 := mul_le_mul_of_nonneg_right h2 (show 0 ≤ α * s ^ 2 * res.nit by positivity)
      nlinarith

/-- The hypotheses of C51 and C74 hold together: `f(x) = x²/2`, `g` the indicator of `[1, 2]`, `h = 0`, from `x0 = 5` with step `1/2`; the
primal-dual solution is `(1, 0)`. -/
example : ∃ P : TSArgs ℝ, TSOk P ∧ P.factor ≤ 1 ∧ ExactProx12 P (ExtFun.indicator (Set.Icc 1 2)) ExtFun.zero ∧
    P.fg = (fun x => (x ^ 2 / 2, x)) ∧ ConvexGrad (fun x : ℝ => x ^ 2 / 2) (fun x => x) ∧
    UpperQuad (fun x : ℝ => x ^ 2 / 2) (fun x => x) 1 ∧ (1 / 2 : ℝ) * 1 < 2 ∧ P.lineSearch = false ∧ P.stepSize = some (1 / 2) ∧
    IsSubgrad ExtFun.zero (1 : ℝ) 0 ∧ IsSubgrad (ExtFun.indicator (Set.Icc 1 2)) (1 : ℝ) (-0 - 1) := by
  refine ⟨{ fg := fun x => (x ^ 2 / 2, x), x0 := 5, prox1 := some fun v _ => max 1 (min v 2), prox2 := none, tol := 1 / 1000, maxIter := 100,
            callback := none, lineSearch := false, stepSize := some (1 / 2), btIter := 100, factor := 7 / 10, hLip := none },
    ⟨by norm_num, by intro s h; cases h; norm_num⟩, by norm_num, ⟨ExtFun.isConvex_indicator (convex_Icc 1 2), ExtFun.isConvex_zero, ?_, isProxOf_zero⟩,
    rfl, ?_, ?_, by norm_num, rfl, rfl, ?_, ?_⟩
  · intro v s hs
    refine ⟨⟨le_max_left _ _, max_le (by norm_num) (min_le_right _ _)⟩, fun y hy => ?_⟩
    show s * 0 + |max 1 (min v 2) - v| ^ 2 / 2 ≤ s * 0 + |y - v| ^ 2 / 2
    obtain ⟨h1, h2⟩ := hy
    rw [sq_abs, sq_abs]
    rcases le_total v 2 with h | h
    · rw [min_eq_left h]
      rcases le_total 1 v with h' | h'
      · rw [max_eq_right h']; nlinarith [sq_nonneg (y - v)]
      · rw [max_eq_left h']; nlinarith
    · rw [min_eq_right h, max_eq_right (by norm_num)]; nlinarith
  · intro x y
    show x ^ 2 / 2 + (y - x) * x ≤ y ^ 2 / 2
    nlinarith [sq_nonneg (x - y)]
  · intro x y
    show y ^ 2 / 2 ≤ x ^ 2 / 2 + (y - x) * x + 1 / 2 * |y - x| ^ 2
    rw [sq_abs]; nlinarith
  · exact ⟨Set.mem_univ _, fun y _ => by simp [ExtFun.zero]⟩
  · refine ⟨⟨le_refl _, by norm_num⟩, fun y hy => ?_⟩
    show 0 + (y - 1) * (-0 - 1) ≤ 0
    have := hy.1
    linarith

end Copt
