import Verif.Model.LmoObjects
import Verif.Props.Regression
import Verif.Props.Trace

/-!
# C96, C97: the linear minimization oracles of constraint.py in Frank-Wolfe

C96: which of them can be called by the solvers at all.  C97: the solver on the trace-norm ball.
-/

set_option linter.unusedSectionVars false

namespace Copt

open Spec

open scoped InnerProductSpace

variable {n d : ℕ}

/-! ### C96: the calling convention -/

/-- **C96 (Python's rule).** A call with `k` positional arguments of a method whose body does not raise TypeError raises TypeError exactly
when `k` is smaller than the number of parameters without default or larger than the number of parameters. -/
theorem C96_positional {A R : Type} (m : PyMethod A R) (hb : ∀ l, m.body l ≠ .error .typeError) (args : List A) :
    m.call args = .error .typeError ↔ ¬(m.required ≤ args.length ∧ args.length ≤ m.required + m.defaults.length) := by
  unfold PyMethod.call
  split_ifs with h1 h2
  · exact ⟨fun _ => by omega, fun _ => rfl⟩
  · exact ⟨fun _ => by omega, fun _ => rfl⟩
  · exact ⟨fun h => (hb _ h).elim, fun h => (h ⟨by omega, by omega⟩).elim⟩

/-- **C96 (Python's rule).** An accepted call runs the body on exactly as many arguments as there are parameters, those of the call first. -/
theorem C96_positional_body {A R : Type} (m : PyMethod A R) (args : List A) (h1 : m.required ≤ args.length)
    (h2 : args.length ≤ m.required + m.defaults.length) :
    ∃ full, m.call args = m.body full ∧ args <+: full ∧ full.length = m.required + m.defaults.length ∧
      (full.drop args.length) <:+ m.defaults := by
  refine ⟨args ++ m.defaults.drop (args.length - m.required), ?_, List.prefix_append _ _, ?_, ?_⟩
  · unfold PyMethod.call
    rw [if_neg (by omega), if_neg (by omega)]
  · rw [List.length_append, List.length_drop]; omega
  · rw [List.drop_left]; exact List.drop_suffix _ _

/-- `lmo(u, x, active_set=None)` called with two, three and four arguments. -/
example : (⟨2, [0], fun l => .ok l⟩ : PyMethod ℕ (List ℕ)).call [7, 8] = .ok [7, 8, 0] ∧
    (⟨2, [0], fun l => .ok l⟩ : PyMethod ℕ (List ℕ)).call [7, 8, 9] = .ok [7, 8, 9] ∧
    (⟨2, [0], fun l => .ok l⟩ : PyMethod ℕ (List ℕ)).call [7, 8, 9, 10] = .error .typeError := ⟨rfl, rfl, rfl⟩

/-- **C96 (call).** `SimplexConstraint.lmo` takes `(u, x)` only: the call `lmo(-grad, x, active_set)` of the solvers raises TypeError for
every radius, gradient, iterate and active set. -/
theorem C96_simplex_call (s : ℝ) (it : ℕ) (u x : EuclideanSpace ℝ (Fin d)) (a : Option (ActiveSet (VRep d) ℝ)) :
    (LmoMethod.simplex s).arg it u x a = .error .typeError := rfl

theorem fw_lmo_error (P : FWArgs (EuclideanSpace ℝ (Fin d)) (VRep d)) {e : PyErr} (hm : 0 < P.maxIter) (htol : 0 ≤ P.tol)
    {act : Option (ActiveSet (VRep d) ℝ)} (ha : fwActive0 P = .ok act) (he : P.lmo 0 (-(P.fg P.x0).2) P.x0 act = .error e) :
    minimizeFrankWolfe P = .error e := by
  obtain ⟨m, hm⟩ := Nat.exists_eq_succ_of_ne_zero hm.ne'
  unfold minimizeFrankWolfe
  rw [if_neg (not_lt.mpr htol), ha]
  simp only [hm]
  show (do let r ← fwLoop P (m + 1) 0 (fwInit P act); fwFinish P r) = _
  unfold fwLoop
  unfold fwBody
  have : P.lmo 0 (-(fwInit P act).grad) (fwInit P act).x (fwInit P act).active = .error e := he
  rw [this]
  rfl

/-- **C96, refuted for the simplex.** Every run of `minimize_frank_wolfe` with `SimplexConstraint(s).lmo`, for every objective, starting point,
step rule, variant and tolerance that passes the argument checks, raises TypeError in its first iteration. -/
theorem C96_simplex_refuted (P : FWArgs (EuclideanSpace ℝ (Fin d)) (VRep d)) (s : ℝ) (hlmo : P.lmo = (LmoMethod.simplex s).arg)
    (hm : 0 < P.maxIter) (htol : 0 ≤ P.tol) (hv : P.variant = "vanilla" ∨ P.variant = "pairwise") :
    minimizeFrankWolfe P = .error .typeError := by
  have key : ∃ r : Except PyErr (Option (ActiveSet (VRep d) ℝ)), fwActive0 P = r ∧ (r = .error .typeError ∨ ∃ act, r = .ok act) := by
    refine ⟨_, rfl, ?_⟩
    unfold fwActive0
    rcases hv with h | h
    · rw [if_pos h]; exact Or.inr ⟨_, rfl⟩
    · rw [if_neg (by rw [h]; decide), if_pos h]
      cases P.x0Rep with
      | none => exact Or.inl rfl
      | some r => exact Or.inr ⟨_, rfl⟩
  obtain ⟨r, hr, h | ⟨act, h⟩⟩ := key
  · unfold minimizeFrankWolfe
    rw [if_neg (not_lt.mpr htol), hr, h]
    rfl
  · exact fw_lmo_error P hm htol (hr.trans h) (by rw [hlmo]; rfl)

/-- **C96, partial: the l1 ball.** The methods of `L1Ball` accept the call of the solvers: `lmo` always, `lmo_pairwise` whenever there is
an active set.  (Missing: `SimplexConstraint`.) -/
theorem C96_l1_partial (alpha : ℝ) (it : ℕ) (u x : EuclideanSpace ℝ (Fin d)) :
    (∀ a, (LmoMethod.l1 alpha).arg it u x a = l1VanillaLmo alpha it u x a) ∧
    ∀ a, (LmoMethod.l1Pairwise alpha).arg it u x a = l1PairwiseLmo alpha it u x a :=
  ⟨fun _ => rfl, fun a => by cases a <;> rfl⟩

/-- The runs of C94 are runs with the method object `L1Ball(alpha).lmo`: with `step="DR"`, `lipschitz=f.lipschitz` and enough iterations
they never raise and reach the tolerance. -/
theorem C96_l1_run_partial (f : LossObj n d) (hf : f.Good) {s : ℝ} (hs : IsLargestSingular f.mat s) (hL : 0 < f.lipschitz s) (hd : 0 < d)
    {alpha : ℝ} (ha : 0 < alpha) (P : FWArgs (EuclideanSpace ℝ (Fin d)) (VRep d)) (hfg : P.fg = f.oracle)
    (hlmo : P.lmo = (LmoMethod.l1 alpha).arg) (hx0 : P.x0 ∈ l1BallE d alpha) (hv : P.variant = "vanilla")
    (hstep : P.step = .str "DR") (hlip : P.lipschitz = some (f.lipschitz s)) (hcb : P.callback = none) (htol : 0 < P.tol)
    (hiter : f.fn P.x0 < P.maxIter * min (P.tol / 2) (P.tol ^ 2 / (8 * f.lipschitz s * alpha ^ 2))) :
    ∃ res, minimizeFrankWolfe P = .ok res ∧ res.certificate ≤ P.tol ∧ res.x ∈ l1BallE d alpha ∧
      ∀ y ∈ l1BallE d alpha, f.fn res.x ≤ f.fn y + P.tol :=
  C94_terminates f hf hs hL hd ha P hfg (hlmo.trans rfl) hx0 hv hstep hlip hcb htol hiter

/-- A run of `C96_simplex_refuted`: `f(x) = ‖x‖²/2` in the plane from the vertex `(1, 0)` of the simplex. -/
example : minimizeFrankWolfe (⟨fun x => (‖x‖ ^ 2 / 2, x), WithLp.toLp 2 ![1, 0], (LmoMethod.simplex 1).arg, none, "vanilla", .str "sublinear",
    none, 100, 0, none⟩ : FWArgs (EuclideanSpace ℝ (Fin 2)) (VRep 2)) = .error .typeError :=
  C96_simplex_refuted _ 1 rfl (by norm_num) le_rfl (Or.inl rfl)

/-! ### C97: Frank-Wolfe on the trace-norm ball -/

variable {M N : ℕ}

/-- The trace-norm ball in the Euclidean space of raveled matrices. -/
def nucBallE (M N : ℕ) (alpha : ℝ) : Set (EuclideanSpace ℝ (Fin (M * N))) := {x | WithLp.ofLp x ∈ nucBall M N alpha}

/-- `svds(., k=1)` returns a leading singular triple of every matrix. -/
def ExactSvds (svds1 : Matrix (Fin M) (Fin N) ℝ → (Fin M → ℝ) × ℝ × (Fin N → ℝ)) : Prop :=
  ∀ X, IsLeadingTriple X (svds1 X).1 (svds1 X).2.1 (svds1 X).2.2

theorem frob_add_left (A B C : Matrix (Fin M) (Fin N) ℝ) : frob (A + B) C = frob A C + frob B C := by
  unfold frob
  rw [← Finset.sum_add_distrib]
  refine Finset.sum_congr rfl fun i _ => ?_
  rw [← Finset.sum_add_distrib]
  exact Finset.sum_congr rfl fun j _ => by rw [Matrix.add_apply]; ring

theorem nucBall_convex (alpha : ℝ) : ∀ x ∈ nucBall M N alpha, ∀ y ∈ nucBall M N alpha, ∀ t : ℝ, 0 ≤ t → t ≤ 1 →
    (1 - t) • x + t • y ∈ nucBall M N alpha := by
  intro x hx y hy t h0 h1
  have hx : nuc (unravel (M := M) (N := N) x) ≤ alpha := hx
  have hy : nuc (unravel (M := M) (N := N) y) ≤ alpha := hy
  show nuc (unravel (M := M) (N := N) ((1 - t) • x + t • y)) ≤ alpha
  refine nuc_le fun Z hZ => ?_
  have e : unravel (M := M) (N := N) ((1 - t) • x + t • y) = (1 - t) • unravel (M := M) (N := N) x + t • unravel (M := M) (N := N) y := rfl
  rw [e, frob_add_left, frob_smul_left, frob_smul_left]
  have h2 := (frob_le_nuc (unravel (M := M) (N := N) x) hZ).trans hx
  have h3 := (frob_le_nuc (unravel (M := M) (N := N) y) hZ).trans hy
  nlinarith

/-- The Frobenius norm is at most the nuclear norm. -/
theorem frob_self_le_nuc_sq (Y : Matrix (Fin M) (Fin N) ℝ) : frob Y Y ≤ nuc Y ^ 2 := by
  have h0 : 0 ≤ frob Y Y := Finset.sum_nonneg fun i _ => Finset.sum_nonneg fun j _ => mul_self_nonneg _
  have hb : OpBound (Real.sqrt (frob Y Y)) Y := by
    intro v
    rw [Real.sq_sqrt h0]
    have e : dot (Y.mulVec v) (Y.mulVec v) = ∑ i, dot (Y i) v ^ 2 := by
      unfold dot
      exact Finset.sum_congr rfl fun i _ => by rw [pow_two]; rfl
    rw [e]
    have e2 : frob Y Y * dot v v = ∑ i, dot (Y i) (Y i) * dot v v := by
      unfold frob
      rw [Finset.sum_mul]
      rfl
    rw [e2]
    exact Finset.sum_le_sum fun i _ => dot_sq_le _ _
  have h1 := frob_le_mul_nuc (Real.sqrt_nonneg _) hb Y
  have h2 := nuc_nonneg Y
  have h3 := Real.sq_sqrt h0
  set r := Real.sqrt (frob Y Y) with hr
  have hr0 : 0 ≤ r := Real.sqrt_nonneg _
  rw [← h3] at h1 ⊢
  by_cases hz : r = 0
  · rw [hz]; simp; positivity
  · have hp : 0 < r := lt_of_le_of_ne hr0 (Ne.symm hz)
    have : r ≤ nuc Y := by
      have : r * r ≤ r * nuc Y := by rw [← pow_two]; exact h1
      exact le_of_mul_le_mul_left this hp
    exact pow_le_pow_left₀ hr0 this 2

theorem nucBallE_diam {alpha : ℝ} : ∀ x ∈ nucBallE M N alpha, ∀ y ∈ nucBallE M N alpha, ‖x - y‖ ≤ 2 * alpha := by
  have key : ∀ x ∈ nucBallE M N alpha, ‖x‖ ≤ alpha := by
    intro x hx
    have hx : nuc (unravel (M := M) (N := N) (WithLp.ofLp x)) ≤ alpha := hx
    refine le_trans (abs_le_of_sq_le_sq' ?_ (nuc_nonneg (unravel (M := M) (N := N) (WithLp.ofLp x)))).2 hx
    rw [norm_sq_ofLp, dot_eq_frob]
    exact frob_self_le_nuc_sq _
  intro x hx y hy
  have := norm_sub_le x y
  have := key x hx
  have := key y hy
  linarith

theorem traceLmo_ok {svds1 : Matrix (Fin M) (Fin N) ℝ → (Fin M → ℝ) × ℝ × (Fin N → ℝ)} (hsv : ExactSvds svds1) {alpha : ℝ} (ha : 0 ≤ alpha)
    (it : ℕ) (u x : EuclideanSpace ℝ (Fin (M * N))) (act : Option (ActiveSet Unit ℝ)) :
    ∃ o s, traceLmo svds1 alpha it u x act = .ok o ∧ o.maxStep = 1 ∧ o.dir = WithLp.toLp 2 s - x ∧
      MaximisesOn (nucBall M N alpha) (WithLp.ofLp u) s := by
  obtain ⟨s, h1, h2, h3⟩ := C09_trace_ball_lmo svds1 alpha ha (WithLp.ofLp u) (WithLp.ofLp x) (hsv _)
  refine ⟨_, s, rfl, h3, ?_, h1⟩
  show WithLp.toLp 2 (TraceBall.lmo svds1 alpha (WithLp.ofLp u) (WithLp.ofLp x)).dir = _
  rw [h2]; rfl

theorem traceLmo_exact {svds1 : Matrix (Fin M) (Fin N) ℝ → (Fin M → ℝ) × ℝ × (Fin N → ℝ)} (hsv : ExactSvds svds1) {alpha : ℝ} (ha : 0 ≤ alpha) :
    ExactLmo (nucBallE M N alpha) (traceLmo svds1 alpha) := by
  intro it u x o ho
  obtain ⟨o', s, h1, -, h3, h4⟩ := traceLmo_ok hsv ha it u x none
  rw [h1] at ho
  simp only [Except.ok.injEq] at ho
  subst ho
  refine ⟨WithLp.toLp 2 s, h4.1, h3, fun s' hs' => ?_⟩
  rw [inner_ofLp, inner_ofLp]
  exact h4.2 _ hs'

/-- **C97 (rate).** `minimize_frank_wolfe(f.f_grad, x0, TraceBall(alpha, (M, N)).lmo)` for every loss on `M * N` features,
`step="sublinear"`, or `step="DR"` with `lipschitz=f.lipschitz`, from a point of the trace-norm ball: every iterate `x_t`, `t ≥ 1`, satisfies
`f(x_t) - f(y) ≤ 8 f.lipschitz alpha² / (t + 2)` for all `y` in the ball; a run that reports a certificate of at
most `tol` returns a `tol`-optimal point. -/
theorem C97_rate (f : LossObj n (M * N)) (hf : f.Good) {s : ℝ} (hs : IsLargestSingular f.mat s) (hL : 0 < f.lipschitz s)
    {svds1 : Matrix (Fin M) (Fin N) ℝ → (Fin M → ℝ) × ℝ × (Fin N → ℝ)} (hsv : ExactSvds svds1)
    {alpha : ℝ} (ha : 0 ≤ alpha) (P : FWArgs (EuclideanSpace ℝ (Fin (M * N))) Unit) (hfg : P.fg = f.oracle)
    (hlmo : P.lmo = traceLmo svds1 alpha) (hx0 : P.x0 ∈ nucBallE M N alpha) (hv : P.variant = "vanilla")
    (hstep : P.step = .str "sublinear" ∧ (∀ L, P.lipschitz = some L → 0 ≤ L) ∨ P.step = .str "DR" ∧ P.lipschitz = some (f.lipschitz s))
    {res : FWResult (EuclideanSpace ℝ (Fin (M * N))) Unit} (h : minimizeFrankWolfe P = .ok res) :
    (∀ (t : ℕ) xt, 1 ≤ t → res.iters[t]? = some xt → ∀ y ∈ nucBallE M N alpha, f.fn xt - f.fn y ≤ 8 * f.lipschitz s * alpha ^ 2 / (t + 2)) ∧
    (res.certificate ≤ P.tol → ∀ y ∈ nucBallE M N alpha, f.fn res.x ≤ f.fn y + P.tol) := by
  obtain ⟨-, hconv, hq, -⟩ := C92_loss f hf hs
  have hC : Convex ℝ (nucBallE M N alpha) := set_convex (nucBall_convex alpha)
  have hex : ExactLmo (nucBallE M N alpha) P.lmo := by rw [hlmo]; exact traceLmo_exact hsv ha
  have hmax : ∀ it u x o, P.lmo it u x none = .ok o → o.maxStep = 1 := by
    intro it u x o ho
    rw [hlmo] at ho
    obtain ⟨o', rep, h1, h2, -⟩ := traceLmo_ok hsv ha it u x none
    rw [h1] at ho
    simp only [Except.ok.injEq] at ho
    rw [← ho]; exact h2
  have hmax' : ∀ it u x o, P.lmo it u x none = .ok o → 0 ≤ o.maxStep := fun it u x o ho => by
    rw [hmax it u x o ho]; exact zero_le_one
  have hg : ∀ x, (P.fg x).2 = f.gradE x := fun x => by rw [hfg]; rfl
  have hlip : ∀ L, P.lipschitz = some L → 0 ≤ L := by
    rcases hstep with ⟨-, h1⟩ | ⟨-, h1⟩
    · exact h1
    · intro L hL'
      rw [h1] at hL'
      cases hL'
      exact hL.le
  constructor
  · intro t xt ht hxt y hy
    have e : 8 * f.lipschitz s * alpha ^ 2 / ((t : ℝ) + 2) = 2 * (f.lipschitz s * (2 * alpha) ^ 2) / ((t : ℝ) + 2) := by ring
    rw [e]
    rcases hstep with ⟨h1, -⟩ | ⟨h1, h2⟩
    · exact C39_sublinear_rate P hC hg hL.le (fun x _ y _ => hconv x y) (fun x _ y _ => hq x y) nucBallE_diam hv hx0 h1 hlip hex hmax' h ht hxt hy
    · exact C40_dr_rate P hC hg hL (fun x _ y _ => hconv x y) (fun x _ y _ => hq x y) nucBallE_diam hv hx0 h1 h2 hex hmax h ht hxt hy
  · intro hc y hy
    exact ((C36_certificate_bound P hg (fun x y _ => hconv x y) hv hlip hex hmax' h hc).2 y hy).2

/-- **C97 (termination).** With `step="DR"`, `lipschitz=f.lipschitz`, `alpha > 0`, `tol > 0` and
`max_iter * min(tol/2, tol²/(8 L alpha²)) > f(x0)`, the run raises nothing and stops with a certificate of at most `tol` at a
`tol`-optimal point of the trace-norm ball. -/
theorem C97_terminates (f : LossObj n (M * N)) (hf : f.Good) {s : ℝ} (hs : IsLargestSingular f.mat s) (hL : 0 < f.lipschitz s)
    {svds1 : Matrix (Fin M) (Fin N) ℝ → (Fin M → ℝ) × ℝ × (Fin N → ℝ)} (hsv : ExactSvds svds1)
    {alpha : ℝ} (ha : 0 < alpha) (P : FWArgs (EuclideanSpace ℝ (Fin (M * N))) Unit) (hfg : P.fg = f.oracle)
    (hlmo : P.lmo = traceLmo svds1 alpha) (hx0 : P.x0 ∈ nucBallE M N alpha) (hv : P.variant = "vanilla")
    (hstep : P.step = .str "DR") (hlip : P.lipschitz = some (f.lipschitz s)) (hcb : P.callback = none) (htol : 0 < P.tol)
    (hiter : f.fn P.x0 < P.maxIter * min (P.tol / 2) (P.tol ^ 2 / (8 * f.lipschitz s * alpha ^ 2))) :
    ∃ res, minimizeFrankWolfe P = .ok res ∧ res.certificate ≤ P.tol ∧ res.x ∈ nucBallE M N alpha ∧
      ∀ y ∈ nucBallE M N alpha, f.fn res.x ≤ f.fn y + P.tol := by
  obtain ⟨-, hconv, hq, -, hnn⟩ := C92_loss f hf hs
  have hC : Convex ℝ (nucBallE M N alpha) := set_convex (nucBall_convex alpha)
  have hex : ExactLmo (nucBallE M N alpha) P.lmo := by rw [hlmo]; exact traceLmo_exact hsv ha.le
  have hmax : ∀ it u x o, P.lmo it u x none = .ok o → o.maxStep = 1 := by
    intro it u x o ho
    rw [hlmo] at ho
    obtain ⟨o', rep, h1, h2, -⟩ := traceLmo_ok hsv ha.le it u x none
    rw [h1] at ho
    simp only [Except.ok.injEq] at ho
    rw [← ho]; exact h2
  obtain ⟨res, h1, -, h2, h3, -⟩ := C87_dr P hC (f := f.fn) (g := f.gradE) (fun x => by rw [hfg]; rfl) hL (by linarith : (0 : ℝ) < 2 * alpha)
    (fun x _ y _ => hq x y) nucBallE_diam (flow := 0) (fun x _ => hnn x) hv hx0 hstep hlip
    (fun it u x => by
      rw [hlmo]
      exact ⟨_, rfl⟩) hex hmax hcb htol (by
      rw [sub_zero, show 2 * (f.lipschitz s * (2 * alpha) ^ 2) = 8 * f.lipschitz s * alpha ^ 2 by ring]
      exact hiter)
  exact ⟨res, h1, h2, h3, (C97_rate f hf hs hL hsv ha.le P hfg hlmo hx0 hv (Or.inr ⟨hstep, hlip⟩) h1).2 h2⟩

/-- An exact `svds` exists for every shape with at least one row and one column: the hypothesis `ExactSvds` is satisfiable. -/
theorem exactSvds_exists (hM : 0 < M) (hN : 0 < N) : ∃ svds1 : Matrix (Fin M) (Fin N) ℝ → (Fin M → ℝ) × ℝ × (Fin N → ℝ), ExactSvds svds1 := by
  have key : ∀ X : Matrix (Fin M) (Fin N) ℝ, ∃ o : (Fin M → ℝ) × ℝ × (Fin N → ℝ), IsLeadingTriple X o.1 o.2.1 o.2.2 := by
    intro X
    obtain ⟨σ, h0, htop, v, hv0, hv⟩ := largestSingular_exists hN (fun i => X i)
    have hdot : ∀ {p : ℕ} (w : Fin p → ℝ), norm2 w ^ 2 = dot w w := fun w => Real.sq_sqrt (dot_self_nonneg w)
    have htop : ∀ w, norm2 (X.mulVec w) ≤ σ * norm2 w := htop
    have hv : norm2 (X.mulVec v) = σ * norm2 v := hv
    have hvp : 0 < norm2 v := by
      refine Real.sqrt_pos.mpr (lt_of_le_of_ne (dot_self_nonneg v) fun h => hv0 ?_)
      have := (Finset.sum_eq_zero_iff_of_nonneg (fun i _ => mul_self_nonneg (v i))).mp h.symm
      funext i
      exact mul_self_eq_zero.mp (this i (Finset.mem_univ i))
    set c := (norm2 v)⁻¹ with hc
    have hcp : 0 < c := inv_pos.mpr hvp
    have hc1 : c * norm2 v = 1 := inv_mul_cancel₀ hvp.ne'
    have hsm : ∀ {p : ℕ} (a : ℝ) (w : Fin p → ℝ), dot (a • w) (a • w) = a ^ 2 * dot w w := by
      intro p a w
      rw [dot_smul_left, dot_smul_right]; ring
    have hunit : dot (c • v) (c • v) = 1 := by
      rw [hsm, ← hdot, ← mul_pow, hc1, one_pow]
    have htop' : OpBound σ X := by
      intro w
      rw [← hdot, ← hdot, ← mul_pow]
      exact pow_le_pow_left₀ (Real.sqrt_nonneg _) (htop w) 2
    have hXc : X.mulVec (c • v) = c • X.mulVec v := Matrix.mulVec_smul _ _ _
    have hnX : dot (X.mulVec (c • v)) (X.mulVec (c • v)) = σ ^ 2 := by
      rw [hXc, hsm, ← hdot, hv, mul_pow]
      have : c ^ 2 * norm2 v ^ 2 = 1 := by rw [← mul_pow, hc1, one_pow]
      linear_combination σ ^ 2 * this
    rcases h0.lt_or_eq with hσ | hσ
    · refine ⟨(σ⁻¹ • X.mulVec (c • v), σ, c • v), ?_, hunit, h0, ?_, htop'⟩
      · show dot (σ⁻¹ • X.mulVec (c • v)) (σ⁻¹ • X.mulVec (c • v)) = 1
        rw [hsm, hnX]
        field_simp
      · show X.mulVec (c • v) = σ • (σ⁻¹ • X.mulVec (c • v))
        rw [smul_smul, mul_inv_cancel₀ hσ.ne', one_smul]
    · refine ⟨(Pi.single ⟨0, hM⟩ 1, σ, c • v), ?_, hunit, h0, ?_, htop'⟩
      · show dot (Pi.single ⟨0, hM⟩ (1 : ℝ)) (Pi.single ⟨0, hM⟩ 1) = 1
        simp [dot_eq_dotProduct]
      · show X.mulVec (c • v) = σ • _
        rw [← hσ, zero_smul]
        rw [← hσ] at hnX
        funext i
        have hz : ∑ i, X.mulVec (c • v) i * X.mulVec (c • v) i = 0 := by
          have : dot (X.mulVec (c • v)) (X.mulVec (c • v)) = 0 := by rw [hnX]; norm_num
          exact this
        have := (Finset.sum_eq_zero_iff_of_nonneg (fun i _ => mul_self_nonneg (X.mulVec (c • v) i))).mp hz
        exact mul_self_eq_zero.mp (this i (Finset.mem_univ i))
  choose g hg using key
  exact ⟨g, hg⟩

/-- The hypotheses of `C97_terminates`: least squares over `2 × 2` matrices with one observation `3 X₀₀ + 4 X₀₁ ≈ 2`, on the trace-norm ball
of radius 1 from 0, `tol = 1`; `f.lipschitz = 51/2`. -/
example : ∃ svds1 : Matrix (Fin 2) (Fin 2) ℝ → (Fin 2 → ℝ) × ℝ × (Fin 2 → ℝ), ∃ res, minimizeFrankWolfe
    ⟨(LossObj.square ⟨fun _ : Fin 1 => (![3, 4, 0, 0] : Fin (2 * 2) → ℝ), ![2], 1 / 2⟩).oracle, 0, traceLmo svds1 1, none, "vanilla",
      .str "DR", some ((LossObj.square ⟨fun _ : Fin 1 => (![3, 4, 0, 0] : Fin (2 * 2) → ℝ), ![2], 1 / 2⟩).lipschitz 5), 500, 1, none⟩ = .ok res ∧
      res.certificate ≤ 1 := by
  obtain ⟨svds1, hsv⟩ := exactSvds_exists (M := 2) (N := 2) two_pos two_pos
  have hl : (LossObj.square ⟨fun _ : Fin 1 => (![3, 4, 0, 0] : Fin (2 * 2) → ℝ), ![2], 1 / 2⟩).lipschitz 5 = 51 / 2 := by
    show 5 * 5 / ((1 : ℕ) : ℝ) + 1 / 2 = 51 / 2
    norm_num
  have hs : IsLargestSingular (fun _ : Fin 1 => (![3, 4, 0, 0] : Fin (2 * 2) → ℝ)) 5 := by
    have hnorm : ∀ w : Fin (2 * 2) → ℝ, norm2 (fun _ : Fin 1 => dot (![3, 4, 0, 0] : Fin (2 * 2) → ℝ) w) = |3 * w 0 + 4 * w 1| := by
      intro w
      unfold norm2
      rw [← Real.sqrt_mul_self_eq_abs]
      congr 1
      simp [dot, Fin.sum_univ_succ]
      try rfl
    refine ⟨by norm_num, fun w => ?_, ![3, 4, 0, 0], ?_, ?_⟩
    · refine le_of_eq_of_le (hnorm w) ?_
      refine abs_le_of_sq_le_sq ?_ (mul_nonneg (by norm_num) (Real.sqrt_nonneg _))
      rw [mul_pow]
      unfold norm2
      rw [Real.sq_sqrt (dot_self_nonneg w)]
      have : dot w w = w 0 * w 0 + w 1 * w 1 + w 2 * w 2 + w 3 * w 3 := by
        unfold dot
        exact Fin.sum_univ_four _
      rw [this]
      nlinarith [sq_nonneg (4 * w 0 - 3 * w 1), sq_nonneg (w 2), sq_nonneg (w 3)]
    · intro h
      have := congrFun h 0
      simp at this
    · refine (hnorm _).trans ?_
      have e : norm2 (![3, 4, 0, 0] : Fin (2 * 2) → ℝ) = 5 := by
        unfold norm2
        rw [show dot (![3, 4, 0, 0] : Fin (2 * 2) → ℝ) ![3, 4, 0, 0] = 5 * 5 by
          unfold dot
          rw [show (∑ i : Fin (2 * 2), (![3, 4, 0, 0] : Fin (2 * 2) → ℝ) i * (![3, 4, 0, 0] : Fin (2 * 2) → ℝ) i) = 3 * 3 + 4 * 4 + 0 * 0 + 0 * 0 from Fin.sum_univ_four _]
          norm_num]
        exact Real.sqrt_mul_self (by norm_num)
      rw [e]
      show |3 * (3 : ℝ) + 4 * 4| = 5 * 5
      norm_num
  have hf0 : (LossObj.square ⟨fun _ : Fin 1 => (![3, 4, 0, 0] : Fin (2 * 2) → ℝ), ![2], 1 / 2⟩).fn 0 = 2 := by
    show squareLoss (fun _ : Fin 1 => (![3, 4, 0, 0] : Fin (2 * 2) → ℝ)) ![2] (1 / 2) (WithLp.ofLp (0 : EuclideanSpace ℝ (Fin (2 * 2)))) = 2
    simp [squareLoss, dot]
    try norm_num
  have h0 : (0 : EuclideanSpace ℝ (Fin (2 * 2))) ∈ nucBallE 2 2 1 := by
    show nuc (unravel (M := 2) (N := 2) (WithLp.ofLp (0 : EuclideanSpace ℝ (Fin (2 * 2))))) ≤ 1
    refine nuc_le fun Z _ => ?_
    simp [frob, unravel]
  obtain ⟨res, h1, h2, -⟩ := C97_terminates (M := 2) (N := 2) (LossObj.square ⟨fun _ : Fin 1 => (![3, 4, 0, 0] : Fin (2 * 2) → ℝ), ![2], 1 / 2⟩)
    (by show (0 : ℝ) ≤ 1 / 2; norm_num) hs (by rw [hl]; norm_num) hsv (alpha := 1) one_pos
    ⟨_, 0, traceLmo svds1 1, none, "vanilla", .str "DR", _, 500, 1, none⟩ rfl rfl h0 rfl rfl rfl rfl one_pos
    (by
      rw [hl, hf0, min_eq_right (by norm_num)]
      norm_num)
  exact ⟨svds1, res, h1, h2⟩

end Copt
