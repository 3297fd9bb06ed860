import Verif.Proof.Objects
import Verif.Props.FrankWolfeTermination
import Verif.Props.ProxGradTermination

/-!
# C92-C94: the solvers on the losses, penalties and constraints of the library

The theorems of the other modules take the objective, the proximal operator and the linear minimization oracle as contracts.
Here the contracts are discharged by the objects of loss.py, penalty.py and constraint.py, so that the statements are about the
documented problem `min f(x) + g(x)` only: `f` the logistic, squared or Huber loss, `g` a penalty or a constraint.
-/

set_option linter.unusedSectionVars false

namespace Copt

open Spec

open scoped InnerProductSpace

variable {n d : ℕ}

/-! ### The documented problem -/

/-- The design matrix. -/
def LossObj.mat : LossObj n d → Fin n → Fin d → ℝ
  | .log f => f.A
  | .square f => f.A
  | .huber f => f.A

/-- The coefficient of `‖x‖²/2`. -/
def LossObj.reg : LossObj n d → ℝ
  | .log f => f.alpha
  | .square f => f.alpha
  | .huber f => f.alpha

/-- Admissible parameters: `alpha ≥ 0`, labels of `LogLoss` in `[0, 1]` (its constructor checks them), `delta > 0`. -/
def LossObj.Good : LossObj n d → Prop
  | .log f => 0 ≤ f.alpha ∧ ∀ i, 0 ≤ f.b i ∧ f.b i ≤ 1
  | .square f => 0 ≤ f.alpha
  | .huber f => 0 ≤ f.alpha ∧ 0 < f.delta

/-- The documented function of the loss object. -/
noncomputable def LossObj.fn : LossObj n d → EuclideanSpace ℝ (Fin d) → ℝ
  | .log f, x => logisticLoss f.A f.b f.alpha (WithLp.ofLp x)
  | .square f, x => squareLoss f.A f.b f.alpha (WithLp.ofLp x)
  | .huber f, x => huberLoss f.A f.b f.alpha f.delta (WithLp.ofLp x)

/-- Admissible parameters of a penalty or constraint on `d` features. -/
def PenObj.Good : PenObj d → Prop
  | .l1Norm alpha => 0 ≤ alpha
  | .groupL1 alpha groups => 0 ≤ alpha ∧ GoodGroups groups ∧ ∀ g ∈ groups, ∀ i ∈ g, i < d
  | .fusedLasso alpha _ => 0 ≤ alpha ∧ 0 < d
  | .l1Ball alpha => 0 < alpha
  | .l2Ball alpha => 0 ≤ alpha
  | .linfBall alpha => 0 ≤ alpha
  | .simplex s => 0 < s ∧ 0 < d

/-- The documented function of the penalty object: a multiple of a norm or of the total variation, or the indicator of a set. -/
noncomputable def PenObj.fn : PenObj d → ExtFun (EuclideanSpace ℝ (Fin d))
  | .l1Norm alpha => ⟨Set.univ, fun x => alpha * norm1 (WithLp.ofLp x)⟩
  | .groupL1 alpha groups => ⟨Set.univ, fun x => alpha * (groups.map fun g => blockNorm (featSet g) (WithLp.ofLp x)).sum⟩
  | .fusedLasso alpha _ => ⟨Set.univ, fun x => alpha * tv1 (WithLp.ofLp x)⟩
  | .l1Ball alpha => .indicator {x | WithLp.ofLp x ∈ Spec.l1Ball alpha}
  | .l2Ball alpha => .indicator {x | WithLp.ofLp x ∈ Spec.l2Ball alpha}
  | .linfBall alpha => .indicator {x | WithLp.ofLp x ∈ Spec.linfBall alpha}
  | .simplex s => .indicator {x | WithLp.ofLp x ∈ Spec.simplex s}

/-! ### The objects satisfy the contracts -/

/-- The gradient computed by `f_grad`, as a function. -/
noncomputable def LossObj.gradE (f : LossObj n d) (x : EuclideanSpace ℝ (Fin d)) : EuclideanSpace ℝ (Fin d) := (f.oracle x).2

theorem LossObj.erm_form (f : LossObj n d) (hf : f.Good) : ∃ (phi phi' : Fin n → ℝ → ℝ) (c : ℝ), 0 ≤ c ∧
    (∀ s, f.lipschitz s = c * (s * s) / n + f.reg) ∧
    (∀ x, f.fn x = erm f.mat f.reg phi (WithLp.ofLp x)) ∧
    (∀ x, (f.fGrad x).2 = fun j => matVecT f.mat (fun i => phi' i (dot (f.mat i) x)) j / n + f.reg * x j) ∧
    (∀ i t, HasDerivAt (phi i) (phi' i t) t) ∧ (∀ i, Monotone (phi' i)) ∧ (∀ i s t, |phi' i s - phi' i t| ≤ c * |s - t|) ∧
    (∀ i t, 0 ≤ phi i t) := by
  cases f with
  | log f =>
    refine ⟨fun i z => logistic1 (f.b i) z, fun i z => sigmoid z - f.b i, 0.25, by norm_num, fun s => rfl, fun x => rfl, ?_, ?_, ?_, ?_, ?_⟩
    · intro x
      funext j
      show matVecT f.A (LogLoss.expitB (f.decision x 0) f.b) j / n + f.alpha * x j = _
      have : LogLoss.expitB (f.decision x 0) f.b = fun i => sigmoid (dot (f.A i) x) - f.b i := by
        funext i; rw [expitB_apply, decision_eq]
      rw [this]
      rfl
    · exact fun i t => hasDerivAt_logistic1 _ _
    · exact fun i a b hab => sub_le_sub_right (sigmoid_mono hab) _
    · intro i s t
      have := sigmoid_lipschitz s t
      rw [sub_sub_sub_cancel_right]; norm_num at this ⊢; exact this
    · exact fun i t => logistic1_nonneg (hf.2 i).1 (hf.2 i).2 t
  | square f =>
    refine ⟨fun i z => (z - f.b i) ^ 2 / 2, fun i z => z - f.b i, 1, by norm_num, fun s => ?_, fun x => ?_, ?_, ?_, ?_, ?_, ?_⟩
    · show s * s / n + f.alpha = _
      rw [one_mul]; rfl
    · show squareLoss f.A f.b f.alpha (WithLp.ofLp x) = _
      rw [squareLoss_eq_erm]; rfl
    · exact fun x => rfl
    · exact fun i t => hasDerivAt_sq1 _ _
    · exact fun i a b hab => sub_le_sub_right hab _
    · intro i s t
      rw [sub_sub_sub_cancel_right, one_mul]
    · exact fun i t => by positivity
  | huber f =>
    refine ⟨fun i z => huber1 f.delta (z - f.b i), fun i z => clip1 f.delta (z - f.b i), 1, by norm_num, fun s => ?_, fun x => rfl, ?_, ?_, ?_, ?_, ?_⟩
    · show s * s / n + f.alpha = _
      rw [one_mul]; rfl
    · exact fun x => huber_grad_eq f hf.2 x
    · intro i t
      have := (hasDerivAt_huber1 hf.2.le (t - f.b i)).comp t ((hasDerivAt_id t).sub_const (f.b i))
      exact this.congr_deriv (mul_one _)
    · exact fun i a b hab => clip1_mono _ (sub_le_sub_right hab _)
    · intro i s t
      have := clip1_lipschitz f.delta (s - f.b i) (t - f.b i)
      rw [sub_sub_sub_cancel_right] at this
      rw [one_mul]; exact this
    · exact fun i t => huber1_nonneg hf.2.le _

theorem LossObj.reg_nonneg {f : LossObj n d} (hf : f.Good) : 0 ≤ f.reg := by
  cases f with
  | log f => exact hf.1
  | square f => exact hf
  | huber f => exact hf.1

/-- **C92 (losses).** The gradient computed by `f_grad` is a gradient of the documented function for which the documented function
is `alpha`-strongly convex, satisfies the quadratic upper bound with the constant `f.lipschitz`, and is nonnegative; the gradient
is Lipschitz with that constant. -/
theorem C92_loss (f : LossObj n d) (hf : f.Good) {s : ℝ} (hs : IsLargestSingular f.mat s) :
    StrongGrad f.fn f.gradE f.reg ∧ ConvexGrad f.fn f.gradE ∧ UpperQuad f.fn f.gradE (f.lipschitz s) ∧
      LipGrad f.gradE (f.lipschitz s) ∧ ∀ x, 0 ≤ f.fn x := by
  obtain ⟨phi, phi', c, hc, hL, hfn, hgr, hd, hm, hl, hnn⟩ := f.erm_form hf
  have hα := f.reg_nonneg hf
  have hstr : StrongGrad f.fn f.gradE f.reg := by
    intro x y
    rw [hfn, hfn, inner_ofLp, norm_sq_ofLp]
    have := erm_strong (A := f.mat) (alpha := f.reg) (phi := phi) (phi' := phi') (fun i a b => convex_1d (hd i) (hm i) a b)
      (WithLp.ofLp x) (WithLp.ofLp y)
    rw [← hgr] at this
    exact this
  refine ⟨hstr, fun x y => ?_, fun x y => ?_, fun x y => ?_, fun x => ?_⟩
  · have := hstr x y
    nlinarith [sq_nonneg ‖y - x‖]
  · rw [hfn, hfn, inner_ofLp, norm_sq_ofLp, hL]
    have := erm_upper (A := f.mat) (alpha := f.reg) (phi := phi) (phi' := phi') hc hs.1 hs.2.1 (fun i a b => quad_upper_1d (hd i) (hl i) a b)
      (WithLp.ofLp x) (WithLp.ofLp y)
    rw [← hgr] at this
    exact this
  · have := lip_erm (A := f.mat) (alpha := f.reg) (s := s) (c := c) hα hc phi' hs.1 hs.2.1 hl (WithLp.ofLp x) (WithLp.ofLp y)
    rw [norm_ofLp, norm_ofLp, hL]
    refine le_trans (le_of_eq ?_) this
    congr 1
    show (f.fGrad (WithLp.ofLp x)).2 - (f.fGrad (WithLp.ofLp y)).2 = _
    rw [hgr, hgr]
  · rw [hfn]
    unfold erm
    have h1 : 0 ≤ ∑ i, phi i (dot (f.mat i) (WithLp.ofLp x)) := Finset.sum_nonneg fun i _ => hnn i _
    have h2 := dot_self_nonneg (WithLp.ofLp x)
    positivity

/-- The values returned by `f_grad` are exact for the squared and Huber losses. -/
def LossObj.Exact : LossObj n d → Prop
  | .log _ => False
  | _ => True

theorem LossObj.oracle_exact {f : LossObj n d} (hf : f.Good) (he : f.Exact) : f.oracle = fun x => (f.fn x, f.gradE x) := by
  funext x
  refine Prod.ext ?_ rfl
  cases f with
  | log f => exact he.elim
  | square f => exact (C26_value f _).2
  | huber f => exact (C27_value f hf.2 _).1

theorem IsSemi.extConvex {g : (Fin d → ℝ) → ℝ} (hg : IsSemi g) :
    (⟨Set.univ, fun x => g (WithLp.ofLp x)⟩ : ExtFun (EuclideanSpace ℝ (Fin d))).IsConvex := by
  refine ⟨convex_univ, fun x _ y _ a b ha hb hab => ?_⟩
  show g (WithLp.ofLp (a • x + b • y)) ≤ a • g (WithLp.ofLp x) + b • g (WithLp.ofLp y)
  rw [WithLp.ofLp_add, WithLp.ofLp_smul, WithLp.ofLp_smul]
  refine (hg.add _ _).trans ?_
  rw [hg.smul, hg.smul, abs_of_nonneg ha, abs_of_nonneg hb]
  exact le_rfl

theorem set_convex {C : Set (Fin d → ℝ)} (hC : ∀ x ∈ C, ∀ y ∈ C, ∀ t : ℝ, 0 ≤ t → t ≤ 1 → (1 - t) • x + t • y ∈ C) :
    Convex ℝ {x : EuclideanSpace ℝ (Fin d) | WithLp.ofLp x ∈ C} := by
  intro x hx y hy a b ha hb hab
  show WithLp.ofLp (a • x + b • y) ∈ C
  rw [WithLp.ofLp_add, WithLp.ofLp_smul, WithLp.ofLp_smul]
  have := hC _ hx _ hy b hb (by linarith)
  rw [show (1 : ℝ) - b = a by linarith] at this
  exact this

theorem isProx_ext {g : (Fin d → ℝ) → ℝ} {s : ℝ} {v : EuclideanSpace ℝ (Fin d)} {p : Fin d → ℝ} (h : IsProx g s (WithLp.ofLp v) p) :
    IsProxPt (⟨Set.univ, fun x => g (WithLp.ofLp x)⟩ : ExtFun (EuclideanSpace ℝ (Fin d))) s v (WithLp.toLp 2 p) := by
  refine ⟨Set.mem_univ _, fun y _ => ?_⟩
  rw [sqDist_ofLp, sqDist_ofLp]
  by_cases hy : WithLp.ofLp y = p
  · show s * g p + sqDist p _ / 2 ≤ s * g (WithLp.ofLp y) + sqDist (WithLp.ofLp y) _ / 2
    rw [hy]
  · exact (h.2 _ (Set.mem_univ _) hy).le

theorem isProj_ext {C : Set (Fin d → ℝ)} {s : ℝ} {v : EuclideanSpace ℝ (Fin d)} {p : Fin d → ℝ} (h : IsProj C (WithLp.ofLp v) p) :
    IsProxPt (.indicator {x : EuclideanSpace ℝ (Fin d) | WithLp.ofLp x ∈ C}) s v (WithLp.toLp 2 p) := by
  refine ⟨h.1, fun y hy => ?_⟩
  rw [sqDist_ofLp, sqDist_ofLp]
  show s * 0 + _ ≤ s * 0 + _
  by_cases hyp : WithLp.ofLp y = p
  · rw [hyp]
  · have := (h.2 _ hy hyp).le
    simp only at this
    linarith

theorem PenObj.proxE_ok {pen : PenObj d} {x : EuclideanSpace ℝ (Fin d)} {step : ℝ} {p : Fin d → ℝ}
    (h : pen.prox (WithLp.ofLp x) step = .ok p) : pen.proxE x step = WithLp.toLp 2 p := by
  unfold PenObj.proxE; rw [h]

/-- **C92 (penalties and constraints).** With admissible parameters the documented function is convex and nonnegative, every call
of `prox` with a positive step returns, and its value is the proximal point of the documented function. -/
theorem C92_prox_exact (pen : PenObj d) (hp : pen.Good) : pen.fn.IsConvex ∧ IsProxOf pen.fn pen.proxE ∧
    (∀ x step, 0 < step → ∃ p, pen.prox x step = .ok p) ∧ ∀ x, 0 ≤ pen.fn.val x := by
  have mk : ∀ (hc : pen.fn.IsConvex) (h : ∀ (x : EuclideanSpace ℝ (Fin d)) step, 0 < step → ∃ p, pen.prox (WithLp.ofLp x) step = .ok p ∧
      IsProxPt pen.fn step x (WithLp.toLp 2 p)), pen.fn.IsConvex ∧ IsProxOf pen.fn pen.proxE ∧
      (∀ x step, 0 < step → ∃ p, pen.prox x step = .ok p) := by
    intro hc h
    refine ⟨hc, fun v s hs => ?_, fun x step hs => ?_⟩
    · obtain ⟨p, h1, h2⟩ := h v s hs
      rw [PenObj.proxE_ok h1]; exact h2
    · obtain ⟨p, h1, -⟩ := h (WithLp.toLp 2 x) step hs
      exact ⟨p, h1⟩
  cases pen with
  | l1Norm alpha =>
    obtain ⟨a, b, c⟩ := mk ((semi_scale norm1_semi hp).extConvex) fun x step hs =>
      ⟨_, rfl, isProx_ext (C10_l1_prox_exact alpha step hp hs.le (WithLp.ofLp x))⟩
    exact ⟨a, b, c, fun x => mul_nonneg hp (Finset.sum_nonneg fun i _ => abs_nonneg _)⟩
  | groupL1 alpha groups =>
    obtain ⟨ha, hG, hn⟩ := hp
    have e : ∀ w y, groupPen (specGroups (n := d) w groups) y = w * (groups.map fun g => blockNorm (featSet g) y).sum := by
      intro w y
      unfold groupPen specGroups
      rw [List.map_map, ← List.sum_map_mul_left]
      rfl
    have hsemi : IsSemi fun y => alpha * (groups.map fun g => blockNorm (featSet (n := d) g) y).sum := by
      have := groupPen_semi (specGroups (n := d) alpha groups) (by
        intro b hb
        obtain ⟨g, -, rfl⟩ := List.mem_map.mp hb
        exact ha)
      rwa [show groupPen (specGroups (n := d) alpha groups) = _ from funext (e alpha)] at this
    obtain ⟨a, b, c⟩ := mk hsemi.extConvex fun x step hs => by
      obtain ⟨p, h1, h2, -⟩ := C13_group_prox_exact alpha step ha hs.le groups hG hn (WithLp.ofLp x)
      refine ⟨p, h1, ?_⟩
      have h3 : IsProx (fun y => alpha * (groups.map fun g => blockNorm (featSet (n := d) g) y).sum) step (WithLp.ofLp x) p := by
        refine ⟨Set.mem_univ _, fun y hy hne => ?_⟩
        have := h2.2 y hy hne
        simp only [e, one_mul] at this
        show step * (alpha * _) + _ < step * (alpha * _) + _
        rw [← mul_assoc, ← mul_assoc]
        exact this
      exact isProx_ext h3
    refine ⟨a, b, c, fun x => mul_nonneg ha (List.sum_nonneg fun t ht => ?_)⟩
    obtain ⟨g, -, rfl⟩ := List.mem_map.mp ht
    exact Real.sqrt_nonneg _
  | fusedLasso alpha junk =>
    obtain ⟨a, b, c⟩ := mk ((semi_scale tv1_semi hp.1).extConvex) fun x step hs => by
      obtain ⟨p, h1, h2⟩ := C15_fused_lasso_prox_exact hp.2 (junk (WithLp.ofLp x) step) hp.1 hs.le (WithLp.ofLp x)
      exact ⟨p, h1, isProx_ext h2⟩
    exact ⟨a, b, c, fun x => mul_nonneg hp.1 (Finset.sum_nonneg fun i _ => abs_nonneg _)⟩
  | l1Ball alpha =>
    obtain ⟨a, b, c⟩ := mk (ExtFun.isConvex_indicator (set_convex (l1Ball_convex alpha))) fun x step hs => by
      obtain ⟨p, h1, h2⟩ := C04_l1_prox_is_projection (WithLp.ofLp x) alpha hp
      exact ⟨p, h1, isProj_ext h2⟩
    exact ⟨a, b, c, fun x => le_rfl⟩
  | l2Ball alpha =>
    obtain ⟨a, b, c⟩ := mk (ExtFun.isConvex_indicator (set_convex (l2Ball_convex alpha))) fun x step hs =>
      ⟨_, rfl, isProj_ext (C02_l2_prox_is_projection alpha hp (WithLp.ofLp x))⟩
    exact ⟨a, b, c, fun x => le_rfl⟩
  | linfBall alpha =>
    obtain ⟨a, b, c⟩ := mk (ExtFun.isConvex_indicator (set_convex (linfBall_convex alpha))) fun x step hs =>
      ⟨_, rfl, isProj_ext (C01_linf_prox_is_projection alpha hp (WithLp.ofLp x))⟩
    exact ⟨a, b, c, fun x => le_rfl⟩
  | simplex s =>
    obtain ⟨a, b, c⟩ := mk (ExtFun.isConvex_indicator (set_convex (simplex_convex s))) fun x step hs => by
      obtain ⟨p, h1, h2⟩ := C03_proj_simplex_correct hp.2 (WithLp.ofLp x) s hp.1
      exact ⟨p, h1, isProj_ext h2⟩
    exact ⟨a, b, c, fun x => le_rfl⟩

/-! ### C92: proximal gradient methods with the step `1 / f.lipschitz` -/

/-- **C92 (accelerated method).** `minimize_proximal_gradient(f.f_grad, x0, pen.prox, step=lambda x: 1/f.lipschitz, accelerated=True)`
for every loss, penalty, data set, starting point, tolerance, callback and number of iterations: the run returns, and after `k ≥ 1`
steps the objective at the returned point exceeds that of any point by at most `2 f.lipschitz ‖x0 - y‖² / (k+1)²`. -/
theorem C92_accelerated (f : LossObj n d) (hf : f.Good) {s : ℝ} (hs : IsLargestSingular f.mat s) (hL : 0 < f.lipschitz s)
    (pen : PenObj d) (hp : pen.Good) (P : APGArgs (EuclideanSpace ℝ (Fin d))) (hfg : P.fg = f.oracle) (hprox : P.prox = some pen.proxE)
    (hstep : P.step = .callable fun _ _ => 1 / f.lipschitz s) (hbt : 0 < P.btIter) :
    ∃ res k, minimizeAccelerated P = .ok res ∧ (res.why ≠ .callback → k = res.nit + 1) ∧ (res.why = .callback → k = res.nit ∧ P.callback ≠ none) ∧
      (1 ≤ k → res.x ∈ pen.fn.dom ∧ ∀ y ∈ pen.fn.dom,
        (f.fn res.x + pen.fn.val res.x) - (f.fn y + pen.fn.val y) ≤ 2 * f.lipschitz s * ‖P.x0 - y‖ ^ 2 / (k + 1) ^ 2) := by
  obtain ⟨-, hconv, hq, -⟩ := C92_loss f hf hs
  obtain ⟨hc, hpr, -⟩ := C92_prox_exact pen hp
  have hG : ExactProxA P pen.fn := ⟨hc, by unfold APGArgs.proxFn; rw [hprox]; exact hpr⟩
  obtain ⟨res, k, h1, -, -, h2, h3, h4⟩ := C50_fista_rate hG (f := f.fn) (g := f.gradE) (fun x => by rw [hfg]; rfl) hconv hq
    (one_div_pos.mpr hL) (by rw [one_div, inv_mul_cancel₀ hL.ne']) hstep hbt
  refine ⟨res, k, h1, h2, h3, fun hk => ⟨(h4 hk).1, fun y hy => ((h4 hk).2 y hy).trans (le_of_eq ?_)⟩⟩
  rw [one_div]
  field_simp

/-- **C92 (not accelerated).** The same call with `accelerated=False`: `f.lipschitz ‖x0 - y‖² / (2 k)`. -/
theorem C92_proximal_gradient (f : LossObj n d) (hf : f.Good) {s : ℝ} (hs : IsLargestSingular f.mat s) (hL : 0 < f.lipschitz s)
    (pen : PenObj d) (hp : pen.Good) (P : PGArgs (EuclideanSpace ℝ (Fin d))) (hfg : P.fg = f.oracle) (hprox : P.prox = some pen.proxE)
    (hstep : P.step = .callable fun _ _ => 1 / f.lipschitz s) (hstore : P.store = id) (hbt : 0 < P.btIter) :
    ∃ res k, minimizeProximalGradient P = .ok res ∧ (res.why ≠ .callback → k = res.nit + 1) ∧ (res.why = .callback → k = res.nit ∧ P.callback ≠ none) ∧
      (1 ≤ k → res.x ∈ pen.fn.dom ∧ ∀ y ∈ pen.fn.dom,
        (f.fn res.x + pen.fn.val res.x) - (f.fn y + pen.fn.val y) ≤ f.lipschitz s * ‖P.x0 - y‖ ^ 2 / (2 * k)) := by
  obtain ⟨-, hconv, hq, -⟩ := C92_loss f hf hs
  obtain ⟨hc, hpr, -⟩ := C92_prox_exact pen hp
  have hG : ExactProx P pen.fn := ⟨hc, by unfold PGArgs.proxFn; rw [hprox]; exact hpr⟩
  have hpos : ∀ (i : ℕ) (st : PGState (EuclideanSpace ℝ (Fin d))), 0 < (fun _ _ => 1 / f.lipschitz s : ℕ → PGState (EuclideanSpace ℝ (Fin d)) → ℝ) i st ∧
      (fun _ _ => 1 / f.lipschitz s : ℕ → PGState (EuclideanSpace ℝ (Fin d)) → ℝ) i st ≤ 1 / f.lipschitz s :=
    fun _ _ => ⟨one_div_pos.mpr hL, le_rfl⟩
  obtain ⟨res, h1, h2⟩ := C47_callable hG (f := f.fn) (g := f.gradE) (fun x => by rw [hfg]; rfl) hconv hL hq hstore hstep hpos hbt
  obtain ⟨res', h1', hx, -, -, hcall, hnc, -⟩ := pg_run hstore (Or.inr ⟨_, hstep, fun i st => (hpos i st).1⟩) hbt
  rw [h1] at h1'
  simp only [Except.ok.injEq] at h1'
  subst h1'
  have hlog := pg_callable_log hstep h1
  refine ⟨res, res.log.length, h1, fun h => (hnc h).1, fun h => ⟨(hcall h).2, (hcall h).1⟩, fun hk => ?_⟩
  rcases List.eq_nil_or_concat res.log with hn | ⟨pre, e, hl⟩
  · rw [hn] at hk; simp at hk
  · have hl' : res.log = pre ++ [e] := by simpa using hl
    have hxe : res.x = e.xNext := by rw [hx, hl', lastX_snoc, hstore]; rfl
    obtain ⟨h3, h4⟩ := h2 pre e [] (by simpa using hl')
    rw [hxe]
    refine ⟨h3, fun y hy => (h4 y hy).trans (le_of_eq ?_)⟩
    have hsum : ((pre ++ [e]).map PGEntry.used).sum = res.log.length * (1 / f.lipschitz s) := by
      rw [← hl', List.map_congr_left (g := fun _ => 1 / f.lipschitz s) (fun q hq' => ?_)]
      · simp
      · obtain ⟨-, -, i, st, h⟩ := hlog q hq'
        exact h
    rw [hsum]
    have : (0 : ℝ) < res.log.length := by exact_mod_cast hk
    field_simp

/-! ### C93: the default parameters -/

/-- **C93.** `minimize_proximal_gradient(f.f_grad, x0, pen.prox)` with the default parameters (backtracking, `max_iter ≤ 500`), squared
or Huber loss, any penalty, no callback: no line search is exhausted, and after `k = nit + 1` iterations the objective exceeds that
of any `y` by at most `0.55 ‖x0 - y‖² / (k min(1800, 0.36/L))`, `L = f.lipschitz`. -/
theorem C93_default (f : LossObj n d) (hf : f.Good) (he : f.Exact) {s : ℝ} (hs : IsLargestSingular f.mat s) (hL : 0 < f.lipschitz s)
    (hL2 : f.lipschitz s ≤ 10 ^ 190) (pen : PenObj d) (hp : pen.Good) (P : PGArgs (EuclideanSpace ℝ (Fin d)))
    (hfg : P.fg = f.oracle) (hprox : P.prox = some pen.proxE) (hb : P.step = .str "backtracking") (hfac : P.factor = 6 / 10)
    (hbt : P.btIter = 1000) (hmi : P.maxIter ≤ 500) (hstore : P.store = id) (hcb : P.callback = none) :
    ∃ res, minimizeProximalGradient P = .ok res ∧ res.warnLs = 0 ∧ res.x ∈ pen.fn.dom ∧ ∀ y ∈ pen.fn.dom,
        (f.fn res.x + pen.fn.val res.x) - (f.fn y + pen.fn.val y) ≤
          55 / 100 * ‖P.x0 - y‖ ^ 2 / ((res.nit + 1) * min 1800 ((36 / 100) / f.lipschitz s)) := by
  obtain ⟨-, hconv, hq, -⟩ := C92_loss f hf hs
  obtain ⟨hc, hpr, -⟩ := C92_prox_exact pen hp
  have hG : ExactProx P pen.fn := ⟨hc, by unfold PGArgs.proxFn; rw [hprox]; exact hpr⟩
  have hfg' : P.fg = fun x => (f.fn x, f.gradE x) := by rw [hfg]; exact f.oracle_exact hf he
  have hf0 : 0 < P.factor := by rw [hfac]; norm_num
  obtain ⟨res, h1, hw, hok⟩ := C45_defaults hfg' hL hL2 hq hstore hb hfac hbt hmi
  obtain ⟨res', h1', h2⟩ := C47_rate hG hfg' hconv hstore hb hf0 (by omega)
  rw [h1] at h1'
  simp only [Except.ok.injEq] at h1'
  subst h1'
  obtain ⟨res', h1', hx, hent, -, hcall, hnc, -⟩ := pg_run hstore (Or.inl ⟨hb, hf0⟩) (by omega)
  rw [h1] at h1'
  simp only [Except.ok.injEq] at h1'
  subst h1'
  have hwhy : res.why ≠ .callback := fun h => (hcall h).1 hcb
  obtain ⟨hlen, pre, e, hl', -⟩ := hnc hwhy
  have hxe : res.x = e.xNext := by rw [hx, hl', lastX_snoc, hstore]; rfl
  obtain ⟨h3, h4⟩ := h2 pre e [] hl' (fun q hq' => (hok q (by rw [hl']; exact hq')).1)
  refine ⟨res, h1, hw, hxe ▸ h3, fun y hy => ?_⟩
  rw [hxe]
  refine (h4 y hy).trans ?_
  set m := min 1800 ((36 / 100) / f.lipschitz s) with hm
  have hm0 : 0 < m := lt_min (by norm_num) (by positivity)
  have hused : ∀ q ∈ pre ++ [e], m / (11 / 10) ≤ q.used := by
    intro q hq'
    obtain ⟨a, b, hab⟩ := List.append_of_mem (by rw [hl']; exact hq' : q ∈ res.log)
    have hE := (hent a q b hab).2 fun r hr => (hok r (by rw [hab]; exact List.mem_append_left _ hr)).1
    have h5 := (hok q (by rw [hl']; exact hq')).2
    have h6 := hE.step_le
    rw [div_le_iff₀ (by norm_num)]
    linarith
  have hsum : ((res.nit : ℝ) + 1) * (m / (11 / 10)) ≤ ((pre ++ [e]).map PGEntry.used).sum := by
    have h7 := List.card_nsmul_le_sum ((pre ++ [e]).map PGEntry.used) (m / (11 / 10)) (by
      intro t ht
      obtain ⟨q, hq', rfl⟩ := List.mem_map.mp ht
      exact hused q hq')
    rw [List.length_map, ← hl', hlen, nsmul_eq_mul] at h7
    rw [← hl']
    push_cast at h7
    exact h7
  have hk : (0 : ℝ) < (res.nit : ℝ) + 1 := by positivity
  calc ‖P.x0 - y‖ ^ 2 / (2 * ((pre ++ [e]).map PGEntry.used).sum) ≤ ‖P.x0 - y‖ ^ 2 / (2 * (((res.nit : ℝ) + 1) * (m / (11 / 10)))) :=
        div_le_div_of_nonneg_left (sq_nonneg _) (by positivity) (by linarith)
    _ = 55 / 100 * ‖P.x0 - y‖ ^ 2 / ((res.nit + 1) * m) := by
        rw [div_eq_div_iff (by positivity) (by positivity)]
        ring

/-- **C93 (success).** If moreover `max_iter + 1 > 2 F(x0) / (tol² min(1800, 0.36/L))`, the run stops by itself with `success=True` at
a point where the gradient of `f` plus a subgradient of the penalty has norm at most `(1.1 + L s) tol`, `s` the last step. -/
theorem C93_success (f : LossObj n d) (hf : f.Good) (he : f.Exact) {s : ℝ} (hs : IsLargestSingular f.mat s) (hL : 0 < f.lipschitz s)
    (hL2 : f.lipschitz s ≤ 10 ^ 190) (pen : PenObj d) (hp : pen.Good) (P : PGArgs (EuclideanSpace ℝ (Fin d)))
    (hfg : P.fg = f.oracle) (hprox : P.prox = some pen.proxE) (hb : P.step = .str "backtracking") (hfac : P.factor = 6 / 10)
    (hbt : P.btIter = 1000) (hmi : P.maxIter ≤ 500) (hstore : P.store = id) (hcb : P.callback = none) (hx0 : P.x0 ∈ pen.fn.dom)
    (htol : 0 < P.tol)
    (hiter : f.fn P.x0 + pen.fn.val P.x0 < (P.maxIter + 1) * (P.tol ^ 2 * min 1800 ((36 / 100) / f.lipschitz s) / 2)) :
    ∃ res, minimizeProximalGradient P = .ok res ∧ res.success = true ∧
      ∃ w t, IsSubgrad pen.fn res.x w ∧ res.stepSize = some t ∧ ‖f.gradE res.x + w‖ ≤ (11 / 10 + f.lipschitz s * t) * P.tol := by
  obtain ⟨-, -, hq, hlip, hnn⟩ := C92_loss f hf hs
  obtain ⟨hc, hpr, -, hpn⟩ := C92_prox_exact pen hp
  have hG : ExactProx P pen.fn := ⟨hc, by unfold PGArgs.proxFn; rw [hprox]; exact hpr⟩
  exact C89_defaults hG (by rw [hfg]; exact f.oracle_exact hf he) hL hL2 hq hlip hstore hb hfac hbt hmi hx0 (low := 0)
    (fun y _ => add_nonneg (hnn y) (hpn y)) hcb htol (by rw [sub_zero]; exact hiter)

/-- **C93 (linear rate).** With ridge regularisation `alpha`, the returned point of the default run is within
`(1 - alpha min(1800, 0.36/L) / 1.1)^k ‖x0 - y‖²` of the minimiser `y` in squared distance, `k = nit + 1`. -/
theorem C93_linear (f : LossObj n d) (hf : f.Good) (he : f.Exact) {s : ℝ} (hs : IsLargestSingular f.mat s) (hL : 0 < f.lipschitz s)
    (hL2 : f.lipschitz s ≤ 10 ^ 190) (pen : PenObj d) (hp : pen.Good) (P : PGArgs (EuclideanSpace ℝ (Fin d)))
    (hfg : P.fg = f.oracle) (hprox : P.prox = some pen.proxE) (hb : P.step = .str "backtracking") (hfac : P.factor = 6 / 10)
    (hbt : P.btIter = 1000) (hmi : P.maxIter ≤ 500) (hstore : P.store = id) (hcb : P.callback = none)
    {y : EuclideanSpace ℝ (Fin d)} (hy : y ∈ pen.fn.dom) (hmin : ∀ z ∈ pen.fn.dom, f.fn y + pen.fn.val y ≤ f.fn z + pen.fn.val z) :
    ∃ res, minimizeProximalGradient P = .ok res ∧
      ‖res.x - y‖ ^ 2 ≤ (1 - f.reg * min 1800 ((36 / 100) / f.lipschitz s) / (11 / 10)) ^ (res.nit + 1) * ‖P.x0 - y‖ ^ 2 := by
  obtain ⟨hst, -, hq, -⟩ := C92_loss f hf hs
  obtain ⟨hc, hpr, -⟩ := C92_prox_exact pen hp
  have hG : ExactProx P pen.fn := ⟨hc, by unfold PGArgs.proxFn; rw [hprox]; exact hpr⟩
  obtain ⟨-, -, c, hc0, hlip, -⟩ := f.erm_form hf
  have hμL : f.reg ≤ f.lipschitz s := by
    rw [hlip]
    have : 0 ≤ c * (s * s) / n := div_nonneg (mul_nonneg hc0 (mul_self_nonneg s)) (Nat.cast_nonneg n)
    linarith
  obtain ⟨res, h1, k, h2, h3, h4⟩ := C90_defaults hG (by rw [hfg]; exact f.oracle_exact hf he) hL hL2 hq hst (f.reg_nonneg hf) hμL hstore
    hb hfac hbt hmi hy hmin
  refine ⟨res, h1, ?_⟩
  rw [← h3 fun h => (h4 h).2 hcb]
  exact h2

/-! ### C94: Frank-Wolfe on the l1 ball -/

/-- The l1 ball in the Euclidean space. -/
def l1BallE (d : ℕ) (alpha : ℝ) : Set (EuclideanSpace ℝ (Fin d)) := {x | WithLp.ofLp x ∈ Spec.l1Ball alpha}

theorem l1VanillaLmo_ok (hd : 0 < d) {alpha : ℝ} (ha : 0 ≤ alpha) (it : ℕ) (u x : EuclideanSpace ℝ (Fin d))
    (act : Option (ActiveSet (L1Rep ℝ d) ℝ)) : ∃ o rep, l1VanillaLmo alpha it u x act = .ok o ∧ o.maxStep = 1 ∧
      o.dir = WithLp.toLp 2 (l1Vertex alpha rep) - x ∧ MaximisesOn (Spec.l1Ball alpha) (WithLp.ofLp u) (l1Vertex alpha rep) := by
  obtain ⟨o, rep, h1, -, -, h2, h3, h4⟩ := C05_l1_lmo_correct hd alpha ha (WithLp.ofLp u) (WithLp.ofLp x)
  refine ⟨⟨WithLp.toLp 2 o.dir, o.fwRep, o.awayRep, o.maxStep⟩, rep, ?_, h2, ?_, h4⟩
  · unfold l1VanillaLmo; rw [h1]; rfl
  · show WithLp.toLp 2 o.dir = _
    rw [h3]; rfl

theorem l1VanillaLmo_exact (hd : 0 < d) {alpha : ℝ} (ha : 0 ≤ alpha) : ExactLmo (l1BallE d alpha) (l1VanillaLmo (d := d) alpha) := by
  intro it u x o ho
  obtain ⟨o', rep, h1, -, h3, h4⟩ := l1VanillaLmo_ok hd ha it u x none
  rw [h1] at ho
  simp only [Except.ok.injEq] at ho
  subst ho
  refine ⟨WithLp.toLp 2 (l1Vertex alpha rep), h4.1, h3, fun s' hs' => ?_⟩
  rw [inner_ofLp, inner_ofLp]
  exact h4.2 _ hs'

theorem l1BallE_diam {alpha : ℝ} : ∀ x ∈ l1BallE d alpha, ∀ y ∈ l1BallE d alpha, ‖x - y‖ ≤ 2 * alpha := by
  have key : ∀ x ∈ l1BallE d alpha, ‖x‖ ≤ alpha := by
    intro x hx
    have hx : norm1 (WithLp.ofLp x) ≤ alpha := hx
    have h0 : 0 ≤ norm1 (WithLp.ofLp x) := Finset.sum_nonneg fun i _ => abs_nonneg _
    refine le_trans ?_ hx
    refine le_of_sq_le_sq' ?_ h0
    rw [norm_sq_ofLp]
    have h1 : ∀ i ∈ (Finset.univ : Finset (Fin d)), WithLp.ofLp x i * WithLp.ofLp x i ≤ |WithLp.ofLp x i| * norm1 (WithLp.ofLp x) := by
      intro i _
      rw [← abs_mul_abs_self]
      exact mul_le_mul_of_nonneg_left (Finset.single_le_sum (f := fun i => |WithLp.ofLp x i|) (fun i _ => abs_nonneg _) (Finset.mem_univ i)) (abs_nonneg _)
    refine (Finset.sum_le_sum h1).trans (le_of_eq ?_)
    rw [← Finset.sum_mul, pow_two]
    rfl
  intro x hx y hy
  have := norm_sub_le x y
  have := key x hx
  have := key y hy
  linarith
where
  le_of_sq_le_sq' {a b : ℝ} (h : a ^ 2 ≤ b ^ 2) (hb : 0 ≤ b) : a ≤ b := abs_le_of_sq_le_sq' h hb |>.2

/-- **C94 (rate).** `minimize_frank_wolfe(f.f_grad, x0, L1Ball(alpha).lmo)` for every loss and data set, `step="sublinear"`, or
`step="DR"` with `lipschitz=f.lipschitz`, from a point of the ball: every iterate `x_t`, `t ≥ 1`, satisfies
`f(x_t) - f(y) ≤ 8 f.lipschitz alpha² / (t + 2)` for all `y` in the ball; a run that reports a certificate of at most `tol`
returns a `tol`-optimal point. -/
theorem C94_rate (f : LossObj n d) (hf : f.Good) {s : ℝ} (hs : IsLargestSingular f.mat s) (hL : 0 < f.lipschitz s) (hd : 0 < d)
    {alpha : ℝ} (ha : 0 ≤ alpha) (P : FWArgs (EuclideanSpace ℝ (Fin d)) (L1Rep ℝ d)) (hfg : P.fg = f.oracle)
    (hlmo : P.lmo = l1VanillaLmo alpha) (hx0 : P.x0 ∈ l1BallE d alpha) (hv : P.variant = "vanilla")
    (hstep : P.step = .str "sublinear" ∧ (∀ L, P.lipschitz = some L → 0 ≤ L) ∨ P.step = .str "DR" ∧ P.lipschitz = some (f.lipschitz s))
    {res : FWResult (EuclideanSpace ℝ (Fin d)) (L1Rep ℝ d)} (h : minimizeFrankWolfe P = .ok res) :
    (∀ (t : ℕ) xt, 1 ≤ t → res.iters[t]? = some xt → ∀ y ∈ l1BallE d alpha, f.fn xt - f.fn y ≤ 8 * f.lipschitz s * alpha ^ 2 / (t + 2)) ∧
    (res.certificate ≤ P.tol → ∀ y ∈ l1BallE d alpha, f.fn res.x ≤ f.fn y + P.tol) := by
  obtain ⟨-, hconv, hq, -⟩ := C92_loss f hf hs
  have hC : Convex ℝ (l1BallE d alpha) := set_convex (l1Ball_convex alpha)
  have hex : ExactLmo (l1BallE d alpha) P.lmo := by rw [hlmo]; exact l1VanillaLmo_exact hd ha
  have hmax : ∀ it u x o, P.lmo it u x none = .ok o → o.maxStep = 1 := by
    intro it u x o ho
    rw [hlmo] at ho
    obtain ⟨o', rep, h1, h2, -⟩ := l1VanillaLmo_ok hd ha it u x none
    rw [h1] at ho
    simp only [Except.ok.injEq] at ho
    rw [← ho]; exact h2
  have hmax' : ∀ it u x o, P.lmo it u x none = .ok o → 0 ≤ o.maxStep := fun it u x o ho => by
    rw [hmax it u x o ho]; exact zero_le_one
  have hg : ∀ x, (P.fg x).2 = f.gradE x := fun x => by rw [hfg]; rfl
  have hlip : ∀ L, P.lipschitz = some L → 0 ≤ L := by
    rcases hstep with ⟨-, h1⟩ | ⟨-, h1⟩
    · exact h1
    · intro L hL'
      rw [h1] at hL'
      cases hL'
      exact hL.le
  constructor
  · intro t xt ht hxt y hy
    have e : 8 * f.lipschitz s * alpha ^ 2 / ((t : ℝ) + 2) = 2 * (f.lipschitz s * (2 * alpha) ^ 2) / ((t : ℝ) + 2) := by ring
    rw [e]
    rcases hstep with ⟨h1, -⟩ | ⟨h1, h2⟩
    · exact C39_sublinear_rate P hC hg hL.le (fun x _ y _ => hconv x y) (fun x _ y _ => hq x y) l1BallE_diam hv hx0 h1 hlip hex hmax' h ht hxt hy
    · exact C40_dr_rate P hC hg hL (fun x _ y _ => hconv x y) (fun x _ y _ => hq x y) l1BallE_diam hv hx0 h1 h2 hex hmax h ht hxt hy
  · intro hc y hy
    exact ((C36_certificate_bound P hg (fun x y _ => hconv x y) hv hlip hex hmax' h hc).2 y hy).2

/-- **C94 (termination).** With `step="DR"` and `lipschitz=f.lipschitz`, `alpha > 0`, `tol > 0` and
`max_iter * min(tol/2, tol²/(8 L alpha²)) > f(x0)`, the run stops with a certificate of at most `tol` at a point of the ball that is
`tol`-optimal. -/
theorem C94_terminates (f : LossObj n d) (hf : f.Good) {s : ℝ} (hs : IsLargestSingular f.mat s) (hL : 0 < f.lipschitz s) (hd : 0 < d)
    {alpha : ℝ} (ha : 0 < alpha) (P : FWArgs (EuclideanSpace ℝ (Fin d)) (L1Rep ℝ d)) (hfg : P.fg = f.oracle)
    (hlmo : P.lmo = l1VanillaLmo alpha) (hx0 : P.x0 ∈ l1BallE d alpha) (hv : P.variant = "vanilla")
    (hstep : P.step = .str "DR") (hlip : P.lipschitz = some (f.lipschitz s)) (hcb : P.callback = none) (htol : 0 < P.tol)
    (hiter : f.fn P.x0 < P.maxIter * min (P.tol / 2) (P.tol ^ 2 / (8 * f.lipschitz s * alpha ^ 2))) :
    ∃ res, minimizeFrankWolfe P = .ok res ∧ res.certificate ≤ P.tol ∧ res.x ∈ l1BallE d alpha ∧
      ∀ y ∈ l1BallE d alpha, f.fn res.x ≤ f.fn y + P.tol := by
  obtain ⟨-, hconv, hq, -, hnn⟩ := C92_loss f hf hs
  have hC : Convex ℝ (l1BallE d alpha) := set_convex (l1Ball_convex alpha)
  have hex : ExactLmo (l1BallE d alpha) P.lmo := by rw [hlmo]; exact l1VanillaLmo_exact hd ha.le
  have hmax : ∀ it u x o, P.lmo it u x none = .ok o → o.maxStep = 1 := by
    intro it u x o ho
    rw [hlmo] at ho
    obtain ⟨o', rep, h1, h2, -⟩ := l1VanillaLmo_ok hd ha.le it u x none
    rw [h1] at ho
    simp only [Except.ok.injEq] at ho
    rw [← ho]; exact h2
  obtain ⟨res, h1, -, h2, h3, -⟩ := C87_dr P hC (f := f.fn) (g := f.gradE) (fun x => by rw [hfg]; rfl) hL (by linarith : (0 : ℝ) < 2 * alpha)
    (fun x _ y _ => hq x y) l1BallE_diam (flow := 0) (fun x _ => hnn x) hv hx0 hstep hlip
    (fun it u x => by
      rw [hlmo]
      obtain ⟨o, rep, h, -⟩ := l1VanillaLmo_ok hd ha.le it u x none
      exact ⟨o, h⟩) hex hmax hcb htol (by
      rw [sub_zero, show 2 * (f.lipschitz s * (2 * alpha) ^ 2) = 8 * f.lipschitz s * alpha ^ 2 by ring]
      exact hiter)
  exact ⟨res, h1, h2, h3, (C94_rate f hf hs hL hd ha.le P hfg hlmo hx0 hv (Or.inr ⟨hstep, hlip⟩) h1).2 h2⟩

/-! ### Concrete problems -/

/-- `svds(A, k=1)` always has something to return: every matrix with at least one column has a largest singular value. -/
theorem largestSingular_exists (hd : 0 < d) (A : Fin n → Fin d → ℝ) : ∃ s, IsLargestSingular A s := by
  let N : EuclideanSpace ℝ (Fin d) → ℝ := fun v => norm2 (fun i => dot (A i) (WithLp.ofLp v))
  have hN : Continuous N := by
    unfold N norm2 dot
    fun_prop
  have hne : (Metric.sphere (0 : EuclideanSpace ℝ (Fin d)) 1).Nonempty := by
    have : Nontrivial (EuclideanSpace ℝ (Fin d)) := by
      have : Nonempty (Fin d) := ⟨⟨0, hd⟩⟩
      infer_instance
    exact NormedSpace.sphere_nonempty.mpr zero_le_one
  obtain ⟨u, hu, hmax⟩ := (isCompact_sphere (0 : EuclideanSpace ℝ (Fin d)) 1).exists_isMaxOn hne hN.continuousOn
  have hu1 : ‖u‖ = 1 := by simpa using hu
  have hnorm : ∀ v : Fin d → ℝ, norm2 v = ‖(WithLp.toLp 2 v : EuclideanSpace ℝ (Fin d))‖ := by
    intro v
    rw [EuclideanSpace.norm_eq]
    unfold norm2 dot
    congr 1
    exact Finset.sum_congr rfl fun i _ => by rw [Real.norm_eq_abs, sq_abs, pow_two]
  have hsc : ∀ (c : ℝ) (v : EuclideanSpace ℝ (Fin d)), N (c • v) = |c| * N v := by
    intro c v
    show norm2 (fun i => dot (A i) (WithLp.ofLp (c • v))) = _
    have : (fun i => dot (A i) (WithLp.ofLp (c • v))) = fun i => c * dot (A i) (WithLp.ofLp v) := by
      funext i
      unfold dot
      rw [Finset.mul_sum]
      exact Finset.sum_congr rfl fun j _ => by simp; ring
    rw [this]
    unfold N norm2
    rw [← Real.sqrt_mul_self_eq_abs, ← Real.sqrt_mul (mul_self_nonneg c)]
    congr 1
    unfold dot
    rw [Finset.mul_sum]
    exact Finset.sum_congr rfl fun j _ => by ring
  refine ⟨N u, Real.sqrt_nonneg _, fun v => ?_, WithLp.ofLp u, ?_, ?_⟩
  · rw [hnorm v]
    set w : EuclideanSpace ℝ (Fin d) := WithLp.toLp 2 v with hw
    show N w ≤ N u * ‖w‖
    by_cases h0 : w = 0
    · rw [h0, norm_zero, mul_zero]
      simp [N, norm2, dot]
    · have hp : 0 < ‖w‖ := norm_pos_iff.mpr h0
      have h1 := hmax (show ‖w‖⁻¹ • w ∈ Metric.sphere (0 : EuclideanSpace ℝ (Fin d)) 1 by
        simp [norm_smul, hp.ne'])
      have h1 : N (‖w‖⁻¹ • w) ≤ N u := h1
      rw [hsc, abs_of_pos (by positivity), inv_mul_le_iff₀ hp] at h1
      linarith
  · intro h
    have : u = 0 := by
      ext i; exact congrFun h i
    rw [this, norm_zero] at hu1
    norm_num at hu1
  · rw [hnorm]
    show N u = N u * ‖u‖
    rw [hu1, mul_one]

/-- Ridge-regularised logistic regression, least squares and robust regression on one sample with two features. -/
example : (LossObj.log ⟨fun _ : Fin 1 => ![3, 4], ![1], 1 / 2, false⟩).Good ∧ (LossObj.square ⟨fun _ : Fin 1 => ![3, 4], ![2], 1 / 2⟩).Good ∧
    (LossObj.huber ⟨fun _ : Fin 1 => ![3, 4], ![2], 1 / 2, 1⟩).Good := by
  refine ⟨⟨by norm_num, fun i => ?_⟩, by show (0 : ℝ) ≤ 1 / 2; norm_num, ⟨by norm_num, by norm_num⟩⟩
  fin_cases i; simp

/-- The hypotheses of `C92_accelerated` and its conclusion for l1-regularised logistic regression: `f.lipschitz = 27/4`. -/
example (x0 : EuclideanSpace ℝ (Fin 2)) (tol : ℝ) (m : ℕ) : ∃ res k,
    minimizeAccelerated ⟨(LossObj.log ⟨fun _ : Fin 1 => ![3, 4], ![1], 1 / 2, false⟩).oracle, x0, some (PenObj.l1Norm 1).proxE, tol, m,
      none, .callable fun _ _ => 1 / (LossObj.log ⟨fun _ : Fin 1 => ![3, 4], ![1], 1 / 2, false⟩).lipschitz 5, 1000, 6 / 10, false⟩ = .ok res ∧
    k = res.nit + 1 ∧ ∀ y, (logisticLoss (fun _ : Fin 1 => ![3, 4]) ![1] (1 / 2) (WithLp.ofLp res.x) + 1 * norm1 (WithLp.ofLp res.x)) -
      (logisticLoss (fun _ : Fin 1 => ![3, 4]) ![1] (1 / 2) (WithLp.ofLp y) + 1 * norm1 (WithLp.ofLp y)) ≤
        2 * (27 / 4) * ‖x0 - y‖ ^ 2 / (k + 1) ^ 2 := by
  have hl : (LossObj.log ⟨fun _ : Fin 1 => ![3, 4], ![1], 1 / 2, false⟩).lipschitz 5 = 27 / 4 := by
    show 0.25 * (5 * 5) / ((1 : ℕ) : ℝ) + 1 / 2 = 27 / 4
    norm_num
  obtain ⟨res, k, h1, h2, h3, h4⟩ := C92_accelerated (LossObj.log ⟨fun _ : Fin 1 => ![3, 4], ![1], 1 / 2, false⟩)
    ⟨by norm_num, fun i => by fin_cases i; simp⟩ largestSingular_example (by rw [hl]; norm_num) (PenObj.l1Norm 1)
    (by show (0 : ℝ) ≤ 1; norm_num) ⟨_, x0, _, tol, m, none, _, 1000, 6 / 10, false⟩ rfl rfl rfl (by norm_num)
  have hw : res.why ≠ .callback := fun h => (h3 h).2 rfl
  rw [hl] at h4
  exact ⟨res, k, h1, h2 hw, fun y => (h4 (by have := h2 hw; omega)).2 y (Set.mem_univ _)⟩

/-- The hypotheses of `C93_default` and its conclusion for the lasso: `f.lipschitz = 51/2`. -/
example (x0 : EuclideanSpace ℝ (Fin 2)) (tol : ℝ) : ∃ res,
    minimizeProximalGradient ⟨(LossObj.square ⟨fun _ : Fin 1 => ![3, 4], ![2], 1 / 2⟩).oracle, x0, some (PenObj.l1Norm 1).proxE, tol, 500,
      none, .str "backtracking", 1000, 6 / 10, false, id⟩ = .ok res ∧ res.warnLs = 0 := by
  have hl : (LossObj.square ⟨fun _ : Fin 1 => ![3, 4], ![2], 1 / 2⟩).lipschitz 5 = 51 / 2 := by
    show 5 * 5 / ((1 : ℕ) : ℝ) + 1 / 2 = 51 / 2
    norm_num
  obtain ⟨res, h1, h2, -⟩ := C93_default (LossObj.square ⟨fun _ : Fin 1 => ![3, 4], ![2], 1 / 2⟩) (by show (0 : ℝ) ≤ 1 / 2; norm_num) trivial
    largestSingular_example (by rw [hl]; norm_num) (by rw [hl]; norm_num) (PenObj.l1Norm 1) (by show (0 : ℝ) ≤ 1; norm_num)
    ⟨_, x0, _, tol, 500, none, _, 1000, 6 / 10, false, id⟩ rfl rfl rfl rfl rfl le_rfl rfl rfl
  exact ⟨res, h1, h2⟩

/-- The hypotheses of `C93_linear`: the elastic net with target 0, whose minimiser is 0; `alpha = 1/2`, `L = 51/2`. -/
example (x0 : EuclideanSpace ℝ (Fin 2)) (tol : ℝ) : ∃ res,
    minimizeProximalGradient ⟨(LossObj.square ⟨fun _ : Fin 1 => ![3, 4], ![0], 1 / 2⟩).oracle, x0, some (PenObj.l1Norm 1).proxE, tol, 500,
      none, .str "backtracking", 1000, 6 / 10, false, id⟩ = .ok res ∧ ‖res.x‖ ^ 2 ≤ (1 - 6 / 935) ^ (res.nit + 1) * ‖x0‖ ^ 2 := by
  have hl : (LossObj.square ⟨fun _ : Fin 1 => ![3, 4], ![0], 1 / 2⟩).lipschitz 5 = 51 / 2 := by
    show 5 * 5 / ((1 : ℕ) : ℝ) + 1 / 2 = 51 / 2
    norm_num
  have hg : (LossObj.square ⟨fun _ : Fin 1 => ![3, 4], ![0], 1 / 2⟩).Good := by show (0 : ℝ) ≤ 1 / 2; norm_num
  have hp : (PenObj.l1Norm (d := 2) 1).Good := by show (0 : ℝ) ≤ 1; norm_num
  have hf0 : (LossObj.square ⟨fun _ : Fin 1 => ![3, 4], ![0], 1 / 2⟩).fn 0 + (PenObj.l1Norm (d := 2) 1).fn.val 0 = 0 := by
    show squareLoss (fun _ : Fin 1 => ![3, 4]) ![0] (1 / 2) (WithLp.ofLp (0 : EuclideanSpace ℝ (Fin 2))) + 1 * norm1 _ = 0
    simp [squareLoss, dot, norm1]
  obtain ⟨res, h1, h2⟩ := C93_linear (LossObj.square ⟨fun _ : Fin 1 => ![3, 4], ![0], 1 / 2⟩) hg trivial
    largestSingular_example (by rw [hl]; norm_num) (by rw [hl]; norm_num) (PenObj.l1Norm 1) hp
    ⟨_, x0, _, tol, 500, none, _, 1000, 6 / 10, false, id⟩ rfl rfl rfl rfl rfl le_rfl rfl rfl (y := 0) (Set.mem_univ _)
    (fun z _ => by
      rw [hf0]
      exact add_nonneg ((C92_loss _ hg largestSingular_example).2.2.2.2 z) ((C92_prox_exact _ hp).2.2.2 z))
  refine ⟨res, h1, ?_⟩
  rw [hl, min_eq_right (by norm_num), sub_zero, sub_zero] at h2
  have e : 1 - (LossObj.square ⟨fun _ : Fin 1 => ![3, 4], ![0], 1 / 2⟩).reg * (36 / 100 / (51 / 2)) / (11 / 10) = 1 - 6 / 935 := by
    show 1 - (1 / 2 : ℝ) * (36 / 100 / (51 / 2)) / (11 / 10) = _
    norm_num
  rw [e] at h2
  exact h2

/-- The hypotheses of `C93_success`: least squares on the l2 ball of radius 1 from 0, `F(x0) = 2`, `tol = 1`: 499 iterations suffice. -/
example : ∃ res, minimizeProximalGradient ⟨(LossObj.square ⟨fun _ : Fin 1 => ![3, 4], ![2], 1 / 2⟩).oracle, 0,
      some (PenObj.l2Ball 1).proxE, 1, 499, none, .str "backtracking", 1000, 6 / 10, false, id⟩ = .ok res ∧ res.success = true := by
  have hl : (LossObj.square ⟨fun _ : Fin 1 => ![3, 4], ![2], 1 / 2⟩).lipschitz 5 = 51 / 2 := by
    show 5 * 5 / ((1 : ℕ) : ℝ) + 1 / 2 = 51 / 2
    norm_num
  have h0 : (0 : EuclideanSpace ℝ (Fin 2)) ∈ (PenObj.l2Ball (d := 2) 1).fn.dom := by
    show dot (WithLp.ofLp (0 : EuclideanSpace ℝ (Fin 2))) (WithLp.ofLp 0) ≤ 1 ^ 2
    simp [dot]
  have hf0 : (LossObj.square ⟨fun _ : Fin 1 => ![3, 4], ![2], 1 / 2⟩).fn 0 + (PenObj.l2Ball (d := 2) 1).fn.val 0 = 2 := by
    show squareLoss (fun _ : Fin 1 => ![3, 4]) ![2] (1 / 2) (WithLp.ofLp (0 : EuclideanSpace ℝ (Fin 2))) + 0 = 2
    simp [squareLoss, dot]
    try norm_num
  obtain ⟨res, h1, h2, -⟩ := C93_success (LossObj.square ⟨fun _ : Fin 1 => ![3, 4], ![2], 1 / 2⟩) (by show (0 : ℝ) ≤ 1 / 2; norm_num) trivial
    largestSingular_example (by rw [hl]; norm_num) (by rw [hl]; norm_num) (PenObj.l2Ball 1) (by show (0 : ℝ) ≤ 1; norm_num)
    ⟨_, 0, _, 1, 499, none, _, 1000, 6 / 10, false, id⟩ rfl rfl rfl rfl rfl (by norm_num) rfl rfl h0 one_pos
    (by
      rw [hl, hf0, min_eq_right (by norm_num)]
      norm_num)
  exact ⟨res, h1, h2⟩

/-- The hypotheses of `C94_terminates`: least squares on the l1 ball of radius 1 from 0 with `tol = 1`. -/
example : ∃ res, minimizeFrankWolfe ⟨(LossObj.square ⟨fun _ : Fin 1 => ![3, 4], ![2], 1 / 2⟩).oracle, 0, l1VanillaLmo 1, none, "vanilla",
      .str "DR", some ((LossObj.square ⟨fun _ : Fin 1 => ![3, 4], ![2], 1 / 2⟩).lipschitz 5), 500, 1, none⟩ = .ok res ∧ res.certificate ≤ 1 := by
  have hl : (LossObj.square ⟨fun _ : Fin 1 => ![3, 4], ![2], 1 / 2⟩).lipschitz 5 = 51 / 2 := by
    show 5 * 5 / ((1 : ℕ) : ℝ) + 1 / 2 = 51 / 2
    norm_num
  have hf0 : (LossObj.square ⟨fun _ : Fin 1 => ![3, 4], ![2], 1 / 2⟩).fn 0 = 2 := by
    show squareLoss (fun _ : Fin 1 => ![3, 4]) ![2] (1 / 2) (WithLp.ofLp (0 : EuclideanSpace ℝ (Fin 2))) = 2
    simp [squareLoss, dot]
    try norm_num
  obtain ⟨res, h1, h2, -⟩ := C94_terminates (LossObj.square ⟨fun _ : Fin 1 => ![3, 4], ![2], 1 / 2⟩) (by show (0 : ℝ) ≤ 1 / 2; norm_num)
    largestSingular_example (by rw [hl]; norm_num) two_pos (alpha := 1) one_pos
    ⟨_, 0, l1VanillaLmo 1, none, "vanilla", .str "DR", _, 500, 1, none⟩ rfl rfl
    (by show norm1 (WithLp.ofLp (0 : EuclideanSpace ℝ (Fin 2))) ≤ 1; simp [norm1]) rfl rfl rfl rfl one_pos
    (by
      rw [hl, hf0, min_eq_right (by norm_num)]
      norm_num)
  exact ⟨res, h1, h2⟩

end Copt
