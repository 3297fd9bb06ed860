import Verif.Props.PrimalDualObjects
import Verif.Proof.Svd
import Mathlib.Analysis.InnerProductSpace.PiL2
import Mathlib.Topology.Order.Compact

/-!
# C104: the documented problems have solutions, and the solvers approach them

The rates of C92, C93, C102 and C103 compare the returned point with a minimiser.  Here: the minimiser exists, for every data set, as soon as the
loss is regularised or the first penalty is coercive; it is unique when the loss is regularised, and the distance to it is bounded by the gap.
-/

set_option linter.unusedSectionVars false

namespace Copt

open Spec
open scoped InnerProductSpace

variable {n d p : ℕ}

theorem LossObj.fn_continuous (f : LossObj n d) (hf : f.Good) : Continuous f.fn := by
  obtain ⟨phi, phi', c, -, -, hfn, -, hd, -⟩ := f.erm_form hf
  have e : f.fn = fun x => erm f.mat f.reg phi (WithLp.ofLp x) := funext hfn
  have hc : ∀ i, Continuous (phi i) := fun i => continuous_iff_continuousAt.mpr fun t => (hd i t).continuousAt
  rw [e]
  unfold erm dot
  refine Continuous.add (Continuous.div_const (continuous_finsetSum _ fun i _ => (hc i).comp ?_) _) ?_
  · fun_prop
  · fun_prop

theorem LossObj.fn_lower (f : LossObj n d) (hf : f.Good) (x : EuclideanSpace ℝ (Fin d)) : f.reg / 2 * ‖x‖ ^ 2 ≤ f.fn x := by
  obtain ⟨phi, phi', c, -, -, hfn, -, hd, -, -, hnn⟩ := f.erm_form hf
  rw [hfn, norm_sq_ofLp]
  unfold erm
  have : 0 ≤ (∑ i, phi i (dot (f.mat i) (WithLp.ofLp x))) / n := div_nonneg (Finset.sum_nonneg fun i _ => hnn i _) (Nat.cast_nonneg n)
  linarith

theorem IsSemi.nonneg {g : (Fin d → ℝ) → ℝ} (hg : IsSemi g) (x : Fin d → ℝ) : 0 ≤ g x := by
  have h1 := hg.add x (-x)
  have h2 := hg.smul (-1) x
  have h3 := hg.smul 0 0
  simp only [neg_one_smul, abs_neg, abs_one, one_mul, abs_zero, zero_mul, smul_zero] at h2 h3
  rw [add_neg_cancel, h2, h3] at h1
  linarith

/-- Sublevel sets are bounded. -/
def Spec.Coercive (G : ExtFun (EuclideanSpace ℝ (Fin d))) : Prop := ∀ r, ∃ B, ∀ x ∈ G.dom, G.val x ≤ r → ‖x‖ ≤ B

theorem norm_le_norm1 (x : EuclideanSpace ℝ (Fin d)) : ‖x‖ ≤ norm1 (WithLp.ofLp x) := by
  have h0 : 0 ≤ norm1 (WithLp.ofLp x) := Finset.sum_nonneg fun i _ => abs_nonneg _
  refine (abs_le_of_sq_le_sq' ?_ h0).2
  rw [norm_sq_ofLp]
  unfold dot norm1
  have h1 : ∑ i, WithLp.ofLp x i * WithLp.ofLp x i = ∑ i, |WithLp.ofLp x i| ^ 2 :=
    Finset.sum_congr rfl fun i _ => by rw [sq_abs, pow_two]
  rw [h1]
  exact Finset.sum_sq_le_sq_sum_of_nonneg fun i _ => abs_nonneg _

/-- **C104 (regularity).** The documented function of every admissible operator has a non-empty closed domain, on which it is continuous and
non-negative. -/
theorem C104_regular (o : SplitObj d) (ho : o.Good) : o.fn.dom.Nonempty ∧ IsClosed o.fn.dom ∧ ContinuousOn o.fn.val o.fn.dom ∧ ∀ x, 0 ≤ o.fn.val x := by
  have hlipc : ∀ l, o.lip = some l → o.fn.dom.Nonempty ∧ IsClosed o.fn.dom ∧ ContinuousOn o.fn.val o.fn.dom := by
    intro l hl
    obtain ⟨hl0, e, h⟩ := (C102_prox_exact o ho).2.2.2 l hl
    have hd : o.fn.dom = Set.univ := by rw [e]
    rw [hd]
    refine ⟨⟨0, Set.mem_univ _⟩, isClosed_univ, ?_⟩
    have : LipschitzWith (Real.toNNReal l) o.fn.val := LipschitzWith.of_dist_le_mul fun a b => by
      rw [Real.coe_toNNReal l hl0, Real.dist_eq, dist_eq_norm, abs_le]
      have h1 := h a b
      have h2 := h b a
      rw [norm_sub_rev] at h2
      constructor <;> linarith
    exact this.continuous.continuousOn
  have hset : ∀ (D : Set (Fin d → ℝ)), IsClosed D → D.Nonempty → o.fn = .indicator {x | WithLp.ofLp x ∈ D} →
      o.fn.dom.Nonempty ∧ IsClosed o.fn.dom ∧ ContinuousOn o.fn.val o.fn.dom ∧ ∀ x, 0 ≤ o.fn.val x := by
    intro D hD hne e
    rw [e]
    obtain ⟨x, hx⟩ := hne
    refine ⟨⟨WithLp.toLp 2 x, hx⟩, ?_, continuousOn_const, fun _ => le_rfl⟩
    exact hD.preimage (by fun_prop : Continuous fun x : EuclideanSpace ℝ (Fin d) => WithLp.ofLp x)
  cases o with
  | pen q =>
    cases q with
    | l1Norm alpha =>
      obtain ⟨a, b, c⟩ := hlipc _ rfl
      exact ⟨a, b, c, fun x => (semi_scale norm1_semi ho).nonneg _⟩
    | groupL1 alpha groups =>
      obtain ⟨a, b, c⟩ := hlipc _ rfl
      refine ⟨a, b, c, fun x => mul_nonneg ho.1 (List.sum_nonneg ?_)⟩
      intro y hy
      obtain ⟨g, -, rfl⟩ := List.mem_map.mp hy
      exact (blockNorm_semi _).nonneg _
    | fusedLasso alpha junk =>
      obtain ⟨a, b, c⟩ := hlipc _ rfl
      exact ⟨a, b, c, fun x => (semi_scale tv1_semi ho.1).nonneg _⟩
    | l1Ball alpha =>
      have ha : 0 < alpha := ho
      refine hset (Spec.l1Ball alpha) (isClosed_le ?_ continuous_const) ⟨0, ?_⟩ rfl
      · unfold norm1; fun_prop
      · show norm1 0 ≤ alpha
        simp only [norm1, Pi.zero_apply, abs_zero, Finset.sum_const_zero]; exact ha.le
    | l2Ball alpha =>
      have ha : 0 ≤ alpha := ho
      refine hset (Spec.l2Ball alpha) (isClosed_le ?_ continuous_const) ⟨0, ?_⟩ rfl
      · unfold dot; fun_prop
      · show dot 0 0 ≤ alpha ^ 2
        simp only [dot, Pi.zero_apply, mul_zero, Finset.sum_const_zero]; positivity
    | linfBall alpha =>
      have ha : 0 ≤ alpha := ho
      refine hset (Spec.linfBall alpha) ?_ ⟨0, fun i => by simpa using ha⟩ rfl
      have : Spec.linfBall alpha = ⋂ i : Fin d, {y : Fin d → ℝ | |y i| ≤ alpha} := by
        ext y; simp [Spec.linfBall]
      rw [this]
      exact isClosed_iInter fun i => isClosed_le (by fun_prop) continuous_const
    | simplex s =>
      obtain ⟨hs, hd⟩ : 0 < s ∧ 0 < d := ho
      refine hset (Spec.simplex s) ?_ ⟨fun i => if i = ⟨0, hd⟩ then s else 0, fun i => ?_, ?_⟩ rfl
      · have : Spec.simplex s = (⋂ i : Fin d, {y : Fin d → ℝ | 0 ≤ y i}) ∩ {y | ∑ i, y i = s} := by
          ext y; simp [Spec.simplex]
        rw [this]
        exact (isClosed_iInter fun i => isClosed_le continuous_const (by fun_prop)).inter (isClosed_eq (by fun_prop) continuous_const)
      · show (0 : ℝ) ≤ if i = ⟨0, hd⟩ then s else 0
        split_ifs <;> linarith
      · simp
  | tvCols R C beta junk =>
    obtain ⟨a, b, c⟩ := hlipc _ rfl
    exact ⟨a, b, c, fun x => (semi_scale tvCols_semi ho.1).nonneg _⟩
  | tvRows R C beta junk =>
    obtain ⟨a, b, c⟩ := hlipc _ rfl
    exact ⟨a, b, c, fun x => (semi_scale tvRows_semi ho.1).nonneg _⟩
  | traceNorm M N k svd alpha =>
    obtain ⟨a, b, c⟩ := hlipc _ rfl
    exact ⟨a, b, c, fun x => (semi_scale nuc_semi ho.1).nonneg _⟩

/-- Which operators have bounded sublevel sets: every constraint, and the l1 and trace norms with a positive coefficient. -/
def SplitObj.Bounded : {d : ℕ} → SplitObj d → Prop
  | _, .pen (.l1Norm alpha) => 0 < alpha
  | _, .pen (.groupL1 _ _) => False
  | _, .pen (.fusedLasso _ _) => False
  | _, .pen _ => True
  | _, .tvCols _ _ _ _ => False
  | _, .tvRows _ _ _ _ => False
  | _, .traceNorm _ _ _ _ alpha => 0 < alpha

theorem SplitObj.coercive (o : SplitObj d) (ho : o.Good) (hb : o.Bounded) : Coercive o.fn := by
  cases o with
  | pen q =>
    cases q with
    | l1Norm alpha =>
      have ha : 0 < alpha := hb
      intro r
      refine ⟨r / alpha, fun x _ hx => (norm_le_norm1 x).trans ?_⟩
      have hx : alpha * norm1 (WithLp.ofLp x) ≤ r := hx
      rw [le_div_iff₀ ha]; linarith
    | groupL1 alpha groups => exact absurd hb (by simp [SplitObj.Bounded])
    | fusedLasso alpha junk => exact absurd hb (by simp [SplitObj.Bounded])
    | l1Ball alpha =>
      intro r
      exact ⟨alpha, fun x hx _ => (norm_le_norm1 x).trans hx⟩
    | l2Ball alpha =>
      intro r
      have ha : 0 ≤ alpha := ho
      refine ⟨alpha, fun x hx _ => (abs_le_of_sq_le_sq' ?_ ha).2⟩
      rw [norm_sq_ofLp]; exact hx
    | linfBall alpha =>
      intro r
      refine ⟨d * alpha, fun x hx _ => (norm_le_norm1 x).trans ?_⟩
      have hx : ∀ i, |WithLp.ofLp x i| ≤ alpha := hx
      unfold norm1
      refine (Finset.sum_le_sum fun i _ => hx i).trans (le_of_eq ?_)
      simp
    | simplex s =>
      intro r
      refine ⟨s, fun x hx _ => (norm_le_norm1 x).trans ?_⟩
      have hx : (∀ i, 0 ≤ WithLp.ofLp x i) ∧ ∑ i, WithLp.ofLp x i = s := hx
      unfold norm1
      rw [← hx.2]
      exact Finset.sum_le_sum fun i _ => (abs_of_nonneg (hx.1 i)).le
  | tvCols R C beta junk => exact absurd hb (by simp [SplitObj.Bounded])
  | tvRows R C beta junk => exact absurd hb (by simp [SplitObj.Bounded])
  | traceNorm M N k svd alpha =>
    have ha : 0 < alpha := hb
    intro r
    refine ⟨r / alpha, fun x _ hx => ?_⟩
    have hx : alpha * nuc (unravel (M := M) (N := N) (WithLp.ofLp x)) ≤ r := hx
    have h1 : ‖x‖ ≤ nuc (unravel (M := M) (N := N) (WithLp.ofLp x)) := by
      refine (abs_le_of_sq_le_sq' ?_ (nuc_nonneg _)).2
      rw [norm_sq_ofLp, dot_eq_frob]
      exact frob_self_le_nuc_sq _
    rw [le_div_iff₀ ha]
    nlinarith

/-- **C104 (existence).** For every loss, data set, admissible operators and matrix the documented problem `min f(x) + g(x) + h(A x)` has a
solution if the loss is regularised (`alpha > 0`) or the first operator is a constraint, an l1 norm or a trace norm with positive coefficient. -/
theorem C104_exists (f : LossObj n d) (hf : f.Good) (o1 : SplitObj d) (o2 : SplitObj p) (h1 : o1.Good) (h2 : o2.Good) {l : ℝ} (hl : o2.lip = some l)
    (A : Fin p → Fin d → ℝ) (hc : 0 < f.reg ∨ o1.Bounded) :
    ∃ xs ∈ o1.fn.dom, ∀ x ∈ o1.fn.dom, f.fn xs + o1.fn.val xs + o2.fn.val (opMatvec A xs) ≤ f.fn x + o1.fn.val x + o2.fn.val (opMatvec A x) := by
  obtain ⟨⟨x0, hx0⟩, hcl, hco, hnn⟩ := C104_regular o1 h1
  obtain ⟨-, -, hco2, hnn2⟩ := C104_regular o2 h2
  obtain ⟨-, e2, -⟩ := (C102_prox_exact o2 h2).2.2.2 l hl
  have hd2 : o2.fn.dom = Set.univ := by rw [e2]
  rw [hd2, continuousOn_univ] at hco2
  have hA : Continuous (opMatvec A) := by
    unfold opMatvec matVec
    fun_prop
  have hcont : ContinuousOn (fun x => f.fn x + o1.fn.val x + o2.fn.val (opMatvec A x)) o1.fn.dom :=
    ((f.fn_continuous hf).continuousOn.add hco).add (hco2.comp hA).continuousOn
  set F := fun x => f.fn x + o1.fn.val x + o2.fn.val (opMatvec A x) with hF
  have hf0 : ∀ x, 0 ≤ f.fn x := fun x => le_trans (mul_nonneg (div_nonneg (f.reg_nonneg hf) (by norm_num)) (sq_nonneg _)) (f.fn_lower hf x)
  have hB : ∃ B, ∀ x ∈ o1.fn.dom, F x ≤ F x0 → ‖x‖ ≤ B := by
    rcases hc with hr | hb
    · refine ⟨Real.sqrt (2 * F x0 / f.reg), fun x hx hle => Real.le_sqrt_of_sq_le ?_⟩
      rw [le_div_iff₀ hr]
      have h3 := f.fn_lower hf x
      have h4 := hnn x
      have h5 := hnn2 (opMatvec A x)
      have h6 : f.fn x + o1.fn.val x + o2.fn.val (opMatvec A x) ≤ F x0 := hle
      linarith
    · obtain ⟨B, hB⟩ := o1.coercive h1 hb (F x0)
      refine ⟨B, fun x hx hle => hB x hx ?_⟩
      have h6 : f.fn x + o1.fn.val x + o2.fn.val (opMatvec A x) ≤ F x0 := hle
      linarith [hf0 x, hnn2 (opMatvec A x)]
  obtain ⟨B, hB⟩ := hB
  obtain ⟨xs, hxs, hmin⟩ := hcont.exists_isMinOn' hcl hx0 (by
    rw [Filter.eventually_inf_principal]
    filter_upwards [(isCompact_closedBall (0 : EuclideanSpace ℝ (Fin d)) B).compl_mem_cocompact] with x hx hxd
    by_contra hlt
    push Not at hlt
    exact hx (by simpa using hB x hxd hlt.le))
  exact ⟨xs, hxs, fun x hx => hmin hx⟩

/-- **C104 (quadratic growth).** If the loss is regularised, a point whose objective exceeds the minimum by `δ` is at squared distance at most
`2 δ / alpha` of the minimiser; in particular the minimiser is unique. -/
theorem C104_growth (f : LossObj n d) (hf : f.Good) {s : ℝ} (hs : IsLargestSingular f.mat s) (o1 : SplitObj d) (o2 : SplitObj p) (h1 : o1.Good) (h2 : o2.Good)
    {l : ℝ} (hl : o2.lip = some l) (A : Fin p → Fin d → ℝ) {xs : EuclideanSpace ℝ (Fin d)} (hxs : xs ∈ o1.fn.dom)
    (hmin : ∀ x ∈ o1.fn.dom, f.fn xs + o1.fn.val xs + o2.fn.val (opMatvec A xs) ≤ f.fn x + o1.fn.val x + o2.fn.val (opMatvec A x))
    {x : EuclideanSpace ℝ (Fin d)} (hx : x ∈ o1.fn.dom) :
    f.reg / 2 * ‖x - xs‖ ^ 2 ≤ f.fn x + o1.fn.val x + o2.fn.val (opMatvec A x) - (f.fn xs + o1.fn.val xs + o2.fn.val (opMatvec A xs)) := by
  obtain ⟨hstr, -⟩ := C92_loss f hf hs
  obtain ⟨c1, -⟩ := C102_prox_exact o1 h1
  obtain ⟨c2, -, -, h3⟩ := C102_prox_exact o2 h2
  obtain ⟨-, e, -⟩ := h3 l hl
  have hd2 : o2.fn.dom = Set.univ := by rw [e]
  have key : ∀ t : ℝ, 0 < t → t < 1 → f.reg / 2 * (1 - t) * ‖x - xs‖ ^ 2 ≤
      f.fn x + o1.fn.val x + o2.fn.val (opMatvec A x) - (f.fn xs + o1.fn.val xs + o2.fn.val (opMatvec A xs)) := by
    intro t ht0 ht1
    set z := (1 - t) • xs + t • x with hz
    have hg1 := c1.2 hxs hx (by linarith : (0 : ℝ) ≤ 1 - t) ht0.le (by ring)
    have hzd : z ∈ o1.fn.dom := c1.1 hxs hx (by linarith : (0 : ℝ) ≤ 1 - t) ht0.le (by ring)
    have hg2 := c2.2 (x := opMatvec A xs) (by rw [hd2]; trivial) (y := opMatvec A x) (by rw [hd2]; trivial) (by linarith : (0 : ℝ) ≤ 1 - t) ht0.le (by ring)
    have hlin : opMatvec A z = (1 - t) • opMatvec A xs + t • opMatvec A x := by
      have := (opLin A).map_add ((1 - t) • xs) (t • x)
      rw [(opLin A).map_smul, (opLin A).map_smul] at this
      exact this
    rw [← hlin] at hg2
    have ha := hstr z xs
    have hb := hstr z x
    have e1 : xs - z = -(t • (x - xs)) := by rw [hz]; module
    have e2 : x - z = (1 - t) • (x - xs) := by rw [hz]; module
    rw [e1, inner_neg_right, inner_smul_right, norm_neg, norm_smul, Real.norm_eq_abs, mul_pow, sq_abs] at ha
    rw [e2, inner_smul_right, norm_smul, Real.norm_eq_abs, mul_pow, sq_abs] at hb
    have hm := hmin z hzd
    simp only [smul_eq_mul] at hg1 hg2
    set q := ⟪f.gradE z, x - xs⟫_ℝ with hq
    set D := ‖x - xs‖ ^ 2 with hD
    have ha' := mul_le_mul_of_nonneg_left ha (by linarith : (0 : ℝ) ≤ 1 - t)
    have hb' := mul_le_mul_of_nonneg_left hb ht0.le
    have : t * (f.reg / 2 * (1 - t) * D) ≤ t * (f.fn x + o1.fn.val x + o2.fn.val (opMatvec A x) - (f.fn xs + o1.fn.val xs + o2.fn.val (opMatvec A xs))) := by
      nlinarith
    exact le_of_mul_le_mul_left this ht0
  set G := f.fn x + o1.fn.val x + o2.fn.val (opMatvec A x) - (f.fn xs + o1.fn.val xs + o2.fn.val (opMatvec A xs)) with hG
  have hlim : Filter.Tendsto (fun t : ℝ => f.reg / 2 * (1 - t) * ‖x - xs‖ ^ 2) (nhdsWithin 0 (Set.Ioi 0)) (nhds (f.reg / 2 * ‖x - xs‖ ^ 2)) := by
    have : Filter.Tendsto (fun t : ℝ => f.reg / 2 * (1 - t) * ‖x - xs‖ ^ 2) (nhds 0) (nhds (f.reg / 2 * (1 - 0) * ‖x - xs‖ ^ 2)) :=
      Continuous.tendsto (by fun_prop) 0
    rw [sub_zero, mul_one] at this
    exact this.mono_left nhdsWithin_le_nhds
  refine le_of_tendsto hlim ?_
  filter_upwards [Ioo_mem_nhdsGT (show (0 : ℝ) < 1 by norm_num)] with t ht
  exact key t ht.1 ht.2

/-- A quantity linear and quadratic in the tolerance is small for small tolerances. -/
theorem small_tol {a b δ : ℝ} (ha : 0 ≤ a) (hb : 0 ≤ b) (hδ : 0 < δ) : ∃ t0 > 0, ∀ t, 0 < t → t ≤ t0 → t * (a + b * t) ≤ δ := by
  refine ⟨min 1 (δ / (a + b + 1)), by positivity, fun t ht hle => ?_⟩
  have h1 : t ≤ 1 := hle.trans (min_le_left _ _)
  have h2 : t * (a + b + 1) ≤ δ := by
    have := hle.trans (min_le_right _ _)
    rwa [le_div_iff₀ (by positivity)] at this
  nlinarith [mul_nonneg hb ht.le]

/-- **C104 (three-operator splitting).** For every regularised loss (`alpha > 0`), data set, admissible first operator and Lipschitz second
operator there is exactly one minimiser of `f + g + h`, and from every starting point, for every `δ > 0` and every tolerance below some threshold,
`minimize_three_split` with `step_size=1/f.lipschitz, line_search=False` and enough iterations reports success at distance at most `δ` from it. -/
theorem C104_three_split (f : LossObj n d) (hf : f.Good) {s : ℝ} (hs : IsLargestSingular f.mat s) (hreg : 0 < f.reg)
    (o1 o2 : SplitObj d) (h1 : o1.Good) (h2 : o2.Good) {l : ℝ} (hl : o2.lip = some l) :
    ∃! xs, xs ∈ o1.fn.dom ∧ (∀ x ∈ o1.fn.dom, f.fn xs + o1.fn.val xs + o2.fn.val xs ≤ f.fn x + o1.fn.val x + o2.fn.val x) ∧
      ∀ (x0 : EuclideanSpace ℝ (Fin d)) (δ : ℝ), 0 < δ → ∃ tol0 > 0, ∀ tol, 0 < tol → tol ≤ tol0 → ∃ m0 : ℕ, ∀ P : TSArgs (EuclideanSpace ℝ (Fin d)),
        P.fg = f.oracle → P.prox1 = some o1.proxE → P.prox2 = some o2.proxE → P.lineSearch = false → P.stepSize = some (1 / f.lipschitz s) → 0 < P.factor →
        P.callback = none → 0 < P.btIter → P.x0 = x0 → P.tol = tol → m0 ≤ P.maxIter →
        ∃ res x, minimizeThreeSplit P = .ok res ∧ res.success = true ∧ res.x = some x ∧ x ∈ o1.fn.dom ∧ ‖x - xs‖ ≤ δ := by
  have hL : 0 < f.lipschitz s := by
    obtain ⟨phi, phi', c, hc, hL, -⟩ := f.erm_form hf
    rw [hL]
    have : 0 ≤ c * (s * s) / n := div_nonneg (mul_nonneg hc (mul_self_nonneg s)) (Nat.cast_nonneg n)
    linarith
  obtain ⟨xs, hxs, hmin⟩ := C104_exists f hf o1 o2 h1 h2 hl (eyeMat d) (Or.inl hreg)
  have hgrow := fun x hx => C104_growth f hf hs o1 o2 h1 h2 hl (eyeMat d) hxs hmin (x := x) hx
  simp only [opMatvec_eye] at hmin hgrow
  obtain ⟨hl0, -⟩ := (C102_prox_exact o2 h2).2.2.2 l hl
  refine ⟨xs, ⟨hxs, hmin, fun x0 δ hδ => ?_⟩, ?_⟩
  · obtain ⟨t0, ht0, ht⟩ := small_tol (a := ‖x0 - xs‖ + 7 * l / f.lipschitz s) (b := 1 / f.lipschitz s) (δ := f.reg / 2 * δ ^ 2) (by positivity) (by positivity) (by positivity)
    refine ⟨t0, ht0, fun tol htol hle => ?_⟩
    obtain ⟨m, hm⟩ := exists_nat_gt (2 * (f.lipschitz s * ‖x0 - xs‖ + 3 * l) ^ 2 / tol ^ 2)
    refine ⟨m + 1, fun P hfg hp1 hp2 hls hst hfac hcb hbt hx0 htl hmi => ?_⟩
    subst hx0 htl
    obtain ⟨res, x, r1, r2, r3, r4, r5⟩ := C102_three_split f hf hs hL o1 o2 h1 h2 hl P hfg hp1 hp2 hls hst hfac hcb hbt htol hxs hmin (by
      rw [div_lt_iff₀ (by positivity)] at hm
      have : (m : ℝ) + 1 ≤ P.maxIter := by exact_mod_cast hmi
      have := mul_le_mul_of_nonneg_left this (sq_nonneg P.tol)
      nlinarith)
    refine ⟨res, x, r1, r2, r3, r4, ?_⟩
    have h3 := hgrow x r4
    have h4 := ht P.tol htol hle
    rw [show ‖P.x0 - xs‖ + 7 * l / f.lipschitz s + 1 / f.lipschitz s * P.tol = ‖P.x0 - xs‖ + 7 * l / f.lipschitz s + P.tol / f.lipschitz s by ring] at h4
    have h5 : f.reg / 2 * ‖x - xs‖ ^ 2 ≤ f.reg / 2 * δ ^ 2 := by linarith
    have h6 := le_of_mul_le_mul_left h5 (by positivity)
    exact (abs_le_of_sq_le_sq' h6 hδ.le).2
  · rintro y ⟨hy, hymin, -⟩
    have h3 := hgrow y hy
    have h4 := hymin xs hxs
    have h5 : f.reg / 2 * ‖y - xs‖ ^ 2 ≤ 0 := by linarith
    have h6 : ‖y - xs‖ ^ 2 ≤ 0 := by
      by_contra hc
      push Not at hc
      have : 0 < f.reg / 2 * ‖y - xs‖ ^ 2 := by positivity
      linarith
    have h7 : ‖y - xs‖ = 0 := by
      have := sq_nonneg ‖y - xs‖
      exact pow_eq_zero_iff (two_ne_zero) |>.mp (le_antisymm h6 this)
    exact sub_eq_zero.mp (norm_eq_zero.mp h7)

/-- **C104 (primal-dual).** The same for `minimize_primal_dual` with `step_size=sigma, step_size2=tau, line_search=False`, any matrix `A` with
`‖A x‖ ≤ m ‖x‖` and `m² < (1/sigma - f.lipschitz/2)/tau`. -/
theorem C104_primal_dual (f : LossObj n d) (hf : f.Good) {s : ℝ} (hs : IsLargestSingular f.mat s) (hreg : 0 < f.reg)
    (o1 : SplitObj d) (o2 : SplitObj p) (h1 : o1.Good) (h2 : o2.Good) {l : ℝ} (hl : o2.lip = some l) (A : Fin p → Fin d → ℝ) {m : ℝ} (hm0 : 0 ≤ m)
    (hm : ∀ x, ‖opMatvec A x‖ ≤ m * ‖x‖) {sigma tau : ℝ} (hσ : 0 < sigma) (hτ : 0 < tau) (hσL : 0 < 1 / sigma - f.lipschitz s / 2)
    (hstep : m ^ 2 < (1 / sigma - f.lipschitz s / 2) * (1 / tau)) :
    ∃! xs, xs ∈ o1.fn.dom ∧ (∀ x ∈ o1.fn.dom, f.fn xs + o1.fn.val xs + o2.fn.val (opMatvec A xs) ≤ f.fn x + o1.fn.val x + o2.fn.val (opMatvec A x)) ∧
      ∀ (x0 : EuclideanSpace ℝ (Fin d)) (δ : ℝ), 0 < δ → ∃ tol0 > 0, ∀ tol, 0 < tol → tol ≤ tol0 → ∃ m0 : ℕ,
        ∀ P : PDArgs (EuclideanSpace ℝ (Fin d)) (EuclideanSpace ℝ (Fin p)),
        P.fg = f.oracle → P.prox1 = some o1.proxE → P.prox2 = some o2.proxE → P.matvec = opMatvec A → P.rmatvec = opRmatvec A →
        P.lineSearch = false → P.stepSize = sigma → P.stepSize2 = some tau → 0 < P.lsIter → P.callback = none → P.x0 = x0 → P.tol = tol → m0 ≤ P.maxIter →
        ∃ res, minimizePrimalDual P = some (.ok res) ∧ res.success = true ∧ res.x ∈ o1.fn.dom ∧ ‖res.x - xs‖ ≤ δ := by
  have hL : 0 < f.lipschitz s := by
    obtain ⟨phi, phi', c, hc, hL, -⟩ := f.erm_form hf
    rw [hL]
    have : 0 ≤ c * (s * s) / n := div_nonneg (mul_nonneg hc (mul_self_nonneg s)) (Nat.cast_nonneg n)
    linarith
  obtain ⟨xs, hxs, hmin⟩ := C104_exists f hf o1 o2 h1 h2 hl A (Or.inl hreg)
  have hgrow := fun x hx => C104_growth f hf hs o1 o2 h1 h2 hl A hxs hmin (x := x) hx
  obtain ⟨hl0, -⟩ := (C102_prox_exact o2 h2).2.2.2 l hl
  refine ⟨xs, ⟨hxs, hmin, fun x0 δ hδ => ?_⟩, ?_⟩
  · set κ := ((1 / sigma - f.lipschitz s / 2) * (1 / tau) - m ^ 2) / (1 / sigma - f.lipschitz s / 2 + 1 / tau) with hκ
    have hκ0 : 0 < κ := div_pos (by linarith) (by positivity)
    set B := ‖x0 - xs‖ ^ 2 / sigma + (‖opMatvec A x0‖ + l) ^ 2 / tau + 2 * (m * ‖x0 - xs‖ * (‖opMatvec A x0‖ + l)) with hB
    obtain ⟨t0, ht0, ht⟩ := small_tol (a := (1 / sigma + m) * Real.sqrt (B / κ) + 2 * l * (m + 1 / tau)) (b := f.lipschitz s / 2) (δ := f.reg / 2 * δ ^ 2)
      (by positivity) (by positivity) (by positivity)
    refine ⟨t0, ht0, fun tol htol hle => ?_⟩
    obtain ⟨K, hK⟩ := exists_nat_gt (2 * B / (κ * tol ^ 2))
    refine ⟨100 * K + 1, fun P hfg hp1 hp2 hmv hrmv hls hs1 hs2 hlsi hcb hx0 htl hmi => ?_⟩
    subst hx0 htl hs1
    have ht0 : P.tau0 = tau := by unfold PDArgs.tau0; rw [hs2]
    obtain ⟨res, r1, r2, r3, r4⟩ := C103_primal_dual f hf hs hL o1 o2 h1 h2 hl A hm0 hm P hfg hp1 hp2 hmv hrmv hls hσ
      (fun t h => by rw [hs2] at h; cases h; exact hτ) hσL (by rw [ht0]; exact hstep) hcb htol hlsi hxs hmin (K := K) (by omega) (κ := κ) (B := B)
      (by rw [ht0]) (by rw [ht0]) (by
        rw [div_lt_iff₀ (by positivity)] at hK
        exact hK)
    refine ⟨res, r1, r2, r3, ?_⟩
    have h3 := hgrow res.x r3
    have h4 := ht P.tol htol hle
    rw [ht0] at r4
    have h5 : f.reg / 2 * ‖res.x - xs‖ ^ 2 ≤ f.reg / 2 * δ ^ 2 := by linarith
    have h6 := le_of_mul_le_mul_left h5 (by positivity)
    exact (abs_le_of_sq_le_sq' h6 hδ.le).2
  · rintro y ⟨hy, hymin, -⟩
    have h3 := hgrow y hy
    have h4 := hymin xs hxs
    have h5 : f.reg / 2 * ‖y - xs‖ ^ 2 ≤ 0 := by linarith
    have h6 : ‖y - xs‖ ^ 2 ≤ 0 := by
      by_contra hc
      push Not at hc
      have : 0 < f.reg / 2 * ‖y - xs‖ ^ 2 := by positivity
      linarith
    have h7 : ‖y - xs‖ = 0 := by
      have := sq_nonneg ‖y - xs‖
      exact pow_eq_zero_iff (two_ne_zero) |>.mp (le_antisymm h6 this)
    exact sub_eq_zero.mp (norm_eq_zero.mp h7)

/-- **C104 (total variation).** For every image size, regularised loss and data set, `min f(x) + g(x) + beta TV(x)` has exactly one solution, and
`minimize_primal_dual` with `L=tv2d_linear_operator(n_rows, n_cols)`, `prox_2=L1Norm(beta).prox` and step sizes with
`8 < (1/sigma - f.lipschitz/2)/tau` returns it to any accuracy, for tolerances small and budgets large enough. -/
theorem C104_total_variation {R C : ℕ} (f : LossObj n (R * C)) (hf : f.Good) {s : ℝ} (hs : IsLargestSingular f.mat s) (hreg : 0 < f.reg)
    (o1 : SplitObj (R * C)) (h1 : o1.Good) {beta : ℝ} (hb : 0 ≤ beta) {sigma tau : ℝ} (hσ : 0 < sigma) (hτ : 0 < tau) (hσL : 0 < 1 / sigma - f.lipschitz s / 2)
    (hstep : 8 < (1 / sigma - f.lipschitz s / 2) * (1 / tau)) :
    ∃! xs, xs ∈ o1.fn.dom ∧ (∀ x ∈ o1.fn.dom, f.fn xs + o1.fn.val xs + beta * tv2 R C (WithLp.ofLp xs) ≤ f.fn x + o1.fn.val x + beta * tv2 R C (WithLp.ofLp x)) ∧
      ∀ (x0 : EuclideanSpace ℝ (Fin (R * C))) (δ : ℝ), 0 < δ → ∃ tol0 > 0, ∀ tol, 0 < tol → tol ≤ tol0 → ∃ m0 : ℕ,
        ∀ P : PDArgs (EuclideanSpace ℝ (Fin (R * C))) (EuclideanSpace ℝ (Fin (tv2dRows (K := ℝ) R C).length)),
        P.fg = f.oracle → P.prox1 = some o1.proxE → P.prox2 = some (SplitObj.pen (.l1Norm beta)).proxE → P.matvec = opMatvec (tv2dMat R C) →
        P.rmatvec = opRmatvec (tv2dMat R C) → P.lineSearch = false → P.stepSize = sigma → P.stepSize2 = some tau → 0 < P.lsIter → P.callback = none →
        P.x0 = x0 → P.tol = tol → m0 ≤ P.maxIter →
        ∃ res, minimizePrimalDual P = some (.ok res) ∧ res.success = true ∧ res.x ∈ o1.fn.dom ∧ ‖res.x - xs‖ ≤ δ := by
  have e8 : Real.sqrt 8 ^ 2 = 8 := Real.sq_sqrt (by norm_num)
  have e : ∀ x, (SplitObj.pen (.l1Norm beta) : SplitObj (tv2dRows (K := ℝ) R C).length).fn.val (opMatvec (tv2dMat R C) x) =
      beta * tv2 R C (WithLp.ofLp x) := by
    intro x
    show beta * norm1 (WithLp.ofLp (opMatvec (tv2dMat R C) x)) = _
    rw [(C103_tv2d_operator x).1]
  have := C104_primal_dual (p := (tv2dRows (K := ℝ) R C).length) f hf hs hreg o1 (.pen (.l1Norm beta)) h1 hb
    (l := beta * Real.sqrt (tv2dRows (K := ℝ) R C).length) rfl (tv2dMat R C) (Real.sqrt_nonneg 8) (fun x => (C103_tv2d_operator x).2) hσ hτ hσL
    (by rw [e8]; exact hstep)
  simp only [e] at this
  exact this

/-- **C104 (accelerated proximal gradient).** For every regularised loss, data set and admissible penalty or constraint the documented problem has
exactly one minimiser `xs`, and `minimize_proximal_gradient(..., step=lambda x: 1/f.lipschitz, accelerated=True)` without callback returns after
`nit + 1` steps a point with `‖x - xs‖² ≤ 4 (f.lipschitz / alpha) ‖x0 - xs‖² / (nit + 2)²`. -/
theorem C104_accelerated (f : LossObj n d) (hf : f.Good) {s : ℝ} (hs : IsLargestSingular f.mat s) (hreg : 0 < f.reg) (pen : PenObj d) (hp : pen.Good) :
    ∃! xs, xs ∈ pen.fn.dom ∧ (∀ x ∈ pen.fn.dom, f.fn xs + pen.fn.val xs ≤ f.fn x + pen.fn.val x) ∧
      ∀ P : APGArgs (EuclideanSpace ℝ (Fin d)), P.fg = f.oracle → P.prox = some pen.proxE → P.step = .callable (fun _ _ => 1 / f.lipschitz s) →
        0 < P.btIter → P.callback = none →
        ∃ res, minimizeAccelerated P = .ok res ∧ ‖res.x - xs‖ ^ 2 ≤ 4 * (f.lipschitz s / f.reg) * ‖P.x0 - xs‖ ^ 2 / (res.nit + 2) ^ 2 := by
  have hL : 0 < f.lipschitz s := by
    obtain ⟨phi, phi', c, hc, hL, -⟩ := f.erm_form hf
    rw [hL]
    have : 0 ≤ c * (s * s) / n := div_nonneg (mul_nonneg hc (mul_self_nonneg s)) (Nat.cast_nonneg n)
    linarith
  have e0 : ∀ x, (SplitObj.pen (.l1Norm 0) : SplitObj d).fn.val x = 0 := fun x => zero_mul _
  have h0 : (SplitObj.pen (.l1Norm 0) : SplitObj d).Good := le_refl (0 : ℝ)
  obtain ⟨xs, hxs, hmin⟩ := C104_exists f hf (.pen pen) (.pen (.l1Norm 0)) hp h0 rfl (eyeMat d) (Or.inl hreg)
  have hgrow := fun x hx => C104_growth f hf hs (.pen pen) (.pen (.l1Norm 0)) hp h0 rfl (eyeMat d) hxs hmin (x := x) hx
  simp only [e0, add_zero] at hmin hgrow
  have hmin : ∀ x ∈ pen.fn.dom, f.fn xs + pen.fn.val xs ≤ f.fn x + pen.fn.val x := hmin
  have hgrow : ∀ x ∈ pen.fn.dom, f.reg / 2 * ‖x - xs‖ ^ 2 ≤ f.fn x + pen.fn.val x - (f.fn xs + pen.fn.val xs) := hgrow
  have hxs : xs ∈ pen.fn.dom := hxs
  refine ⟨xs, ⟨hxs, hmin, fun P hfg hpr hst hbt hcb => ?_⟩, ?_⟩
  · obtain ⟨res, k, r1, r2, r3, r4⟩ := C92_accelerated f hf hs hL pen hp P hfg hpr hst hbt
    have hw : res.why ≠ .callback := fun h => (r3 h).2 hcb
    have hk := r2 hw
    subst hk
    obtain ⟨r5, r6⟩ := r4 (by omega)
    refine ⟨res, r1, ?_⟩
    have h1 := (hgrow res.x r5).trans (r6 xs hxs)
    have h2 : ‖res.x - xs‖ ^ 2 ≤ (2 / f.reg) * (2 * f.lipschitz s * ‖P.x0 - xs‖ ^ 2 / (((res.nit + 1 : ℕ) : ℝ) + 1) ^ 2) := by
      have := mul_le_mul_of_nonneg_left h1 (by positivity : 0 ≤ 2 / f.reg)
      rwa [← mul_assoc, show 2 / f.reg * (f.reg / 2) = 1 by field_simp, one_mul] at this
    refine h2.trans (le_of_eq ?_)
    push_cast
    rw [show ((res.nit : ℝ) + 1 + 1) = res.nit + 2 by ring]
    field_simp
    ring
  · rintro y ⟨hy, hymin, -⟩
    have h3 := hgrow y hy
    have h4 := hymin xs hxs
    have h5 : f.reg / 2 * ‖y - xs‖ ^ 2 ≤ 0 := by linarith
    have h6 : ‖y - xs‖ ^ 2 ≤ 0 := by
      by_contra hc
      push Not at hc
      have : 0 < f.reg / 2 * ‖y - xs‖ ^ 2 := by positivity
      linarith
    have h7 : ‖y - xs‖ = 0 := by
      have := sq_nonneg ‖y - xs‖
      exact pow_eq_zero_iff (two_ne_zero) |>.mp (le_antisymm h6 this)
    exact sub_eq_zero.mp (norm_eq_zero.mp h7)

/-! ### Concrete problems -/

/-- Least squares on the simplex, one sample with two features. -/
example := C104_accelerated (LossObj.square ⟨fun _ : Fin 1 => ![3, 4], ![2], 1 / 2⟩) (show (0 : ℝ) ≤ 1 / 2 by norm_num) largestSingular_example
  (show (0 : ℝ) < 1 / 2 by norm_num) (.simplex 1) ⟨zero_lt_one, by norm_num⟩

/-- Sparse fused logistic regression on the one-sample data set `(3, 4)`: three-operator splitting with the l1 norm and the fused lasso. -/
example (junk : (Fin 2 → ℝ) → ℝ → TV1D.Junk 2 ℝ) (x0 : EuclideanSpace ℝ (Fin 2)) : ∃ xs : EuclideanSpace ℝ (Fin 2),
    (∀ x, logisticLoss (fun _ : Fin 1 => ![3, 4]) ![1] (1 / 2) (WithLp.ofLp xs) + 1 * norm1 (WithLp.ofLp xs) + 2 * tv1 (WithLp.ofLp xs) ≤
      logisticLoss (fun _ : Fin 1 => ![3, 4]) ![1] (1 / 2) x + 1 * norm1 x + 2 * tv1 x) ∧
    ∃ tol0 > 0, ∀ tol, 0 < tol → tol ≤ tol0 → ∃ m0 : ℕ, ∀ m ≥ m0, ∃ res x,
      minimizeThreeSplit ⟨(LossObj.log ⟨fun _ : Fin 1 => ![3, 4], ![1], 1 / 2, false⟩).oracle, x0, some (PenObj.l1Norm 1).proxE, some (PenObj.fusedLasso 2 junk).proxE,
        tol, m, none, false, some (4 / 27), 100, 7 / 10, none⟩ = .ok res ∧ res.success = true ∧ res.x = some x ∧ ‖x - xs‖ ≤ 1 / 1000 := by
  have hl : (LossObj.log ⟨fun _ : Fin 1 => ![3, 4], ![1], 1 / 2, false⟩).lipschitz 5 = 27 / 4 := by
    show 0.25 * (5 * 5) / ((1 : ℕ) : ℝ) + 1 / 2 = 27 / 4
    norm_num
  obtain ⟨xs, ⟨-, h2, h3⟩, -⟩ := C104_three_split (LossObj.log ⟨fun _ : Fin 1 => ![3, 4], ![1], 1 / 2, false⟩)
    ⟨by norm_num, fun i => by fin_cases i; simp⟩ largestSingular_example (by show (0 : ℝ) < 1 / 2; norm_num) (.pen (.l1Norm 1)) (.pen (.fusedLasso 2 junk))
    (by show (0 : ℝ) ≤ 1; norm_num) ⟨by norm_num, by norm_num⟩ rfl
  refine ⟨xs, fun x => h2 (WithLp.toLp 2 x) (Set.mem_univ _), ?_⟩
  obtain ⟨t0, ht0, h⟩ := h3 x0 (1 / 1000) (by norm_num)
  refine ⟨t0, ht0, fun tol h1 h2 => ?_⟩
  obtain ⟨m0, h⟩ := h tol h1 h2
  refine ⟨m0, fun m hm => ?_⟩
  obtain ⟨res, x, r1, r2, r3, -, r4⟩ := h ⟨_, x0, _, _, tol, m, none, false, some (4 / 27), 100, 7 / 10, none⟩ rfl rfl rfl rfl
    (by rw [hl]; norm_num) (by norm_num) rfl (by norm_num) rfl rfl hm
  exact ⟨res, x, r1, r2, r3, r4⟩

/-- Total variation regression of an image of 1 × 2 pixels in `[-255, 255]` by the primal-dual method with `step_size=1/30` and `step_size2=1`:
`8 < (30 - 51/4)/1`. -/
example : ∃ xs : EuclideanSpace ℝ (Fin (1 * 2)), ∀ x0 : EuclideanSpace ℝ (Fin (1 * 2)), ∃ tol > 0, ∃ m0 : ℕ, ∀ m ≥ m0, ∃ res,
    minimizePrimalDual (E := EuclideanSpace ℝ (Fin (1 * 2))) (F := EuclideanSpace ℝ (Fin (tv2dRows (K := ℝ) 1 2).length))
      ⟨(LossObj.square ⟨fun _ : Fin 1 => (![3, 4] : Fin (1 * 2) → ℝ), ![7], 1 / 2⟩).oracle, x0, some (SplitObj.pen (.linfBall 255)).proxE,
        some (SplitObj.pen (.l1Norm 1)).proxE, opMatvec (tv2dMat 1 2), opRmatvec (tv2dMat 1 2), tol, m, none, 1 / 30, some 1, false, 100⟩ = some (.ok res) ∧
      res.success = true ∧ ‖res.x - xs‖ ≤ 1 / 1000 := by
  have hl : (LossObj.square ⟨fun _ : Fin 1 => (![3, 4] : Fin (1 * 2) → ℝ), ![7], 1 / 2⟩).lipschitz 5 = 51 / 2 := by
    show 5 * 5 / ((1 : ℕ) : ℝ) + 1 / 2 = 51 / 2
    norm_num
  obtain ⟨xs, ⟨-, -, h⟩, -⟩ := C104_total_variation (R := 1) (C := 2) (LossObj.square ⟨fun _ : Fin 1 => (![3, 4] : Fin (1 * 2) → ℝ), ![7], 1 / 2⟩)
    (show (0 : ℝ) ≤ 1 / 2 by norm_num) largestSingular_example (show (0 : ℝ) < 1 / 2 by norm_num) (.pen (.linfBall 255)) (show (0 : ℝ) ≤ 255 by norm_num)
    (beta := 1) zero_le_one (sigma := 1 / 30) (tau := 1) (by norm_num) (by norm_num) (by rw [hl]; norm_num) (by rw [hl]; norm_num)
  refine ⟨xs, fun x0 => ?_⟩
  obtain ⟨t0, ht0, h⟩ := h x0 (1 / 1000) (by norm_num)
  obtain ⟨m0, h⟩ := h t0 ht0 le_rfl
  refine ⟨t0, ht0, m0, fun m hm => ?_⟩
  generalize hP : (PDArgs.mk (E := EuclideanSpace ℝ (Fin (1 * 2))) (F := EuclideanSpace ℝ (Fin (tv2dRows (K := ℝ) 1 2).length)) _ _ _ _ _ _ _ _ _ _ _ _ _) = P
  obtain ⟨res, r1, r2, -, r4⟩ := h P (by rw [← hP]) (by rw [← hP]) (by rw [← hP]) (by rw [← hP]) (by rw [← hP]) (by rw [← hP]) (by rw [← hP]) (by rw [← hP])
    (by rw [← hP]; norm_num) (by rw [← hP]) (by rw [← hP]) (by rw [← hP]) (by rw [← hP]; exact hm)
  exact ⟨res, r1, r2, r4⟩

/-- An exact `svd` exists for every shape: the trace norm with a non-negative coefficient is an admissible operator. -/
theorem traceNorm_good (M N : ℕ) {alpha : ℝ} (ha : 0 ≤ alpha) : ∃ svd : Matrix (Fin M) (Fin N) ℝ → SvdOut M N (min M N),
    (SplitObj.traceNorm M N (min M N) svd alpha).Good := by
  have : ∀ X : Matrix (Fin M) (Fin N) ℝ, ∃ o : SvdOut M N (min M N), IsSvd X o.U o.s o.Vt := fun X => by
    obtain ⟨U, s, V, h⟩ := svd_exists X
    exact ⟨⟨U, s, V⟩, h⟩
  choose svd hsvd using this
  exact ⟨svd, ha, hsvd⟩

/-- Matrix regression with the sum of an l1 and a trace norm as in plot_sparse_nuclear_norm.py, 1 × 2 matrices. -/
example : ∃ svd : Matrix (Fin 1) (Fin 2) ℝ → SvdOut 1 2 1, ∃ xs : EuclideanSpace ℝ (Fin (1 * 2)), ∀ x0 : EuclideanSpace ℝ (Fin (1 * 2)), ∃ tol > 0, ∃ m0 : ℕ,
    ∀ m ≥ m0, ∃ res x, minimizeThreeSplit ⟨(LossObj.square ⟨fun _ : Fin 1 => (![3, 4] : Fin (1 * 2) → ℝ), ![7], 1 / 2⟩).oracle, x0,
      some (SplitObj.traceNorm 1 2 1 svd 1).proxE, some (SplitObj.pen (.l1Norm 1)).proxE, tol, m, none, false, some (2 / 51), 100, 7 / 10, none⟩ = .ok res ∧
      res.success = true ∧ res.x = some x ∧ ‖x - xs‖ ≤ 1 / 1000 := by
  have hl : (LossObj.square ⟨fun _ : Fin 1 => (![3, 4] : Fin (1 * 2) → ℝ), ![7], 1 / 2⟩).lipschitz 5 = 51 / 2 := by
    show 5 * 5 / ((1 : ℕ) : ℝ) + 1 / 2 = 51 / 2
    norm_num
  obtain ⟨svd, hsvd⟩ := traceNorm_good 1 2 (alpha := 1) zero_le_one
  refine ⟨svd, ?_⟩
  obtain ⟨xs, ⟨-, -, h⟩, -⟩ := C104_three_split (LossObj.square ⟨fun _ : Fin 1 => (![3, 4] : Fin (1 * 2) → ℝ), ![7], 1 / 2⟩)
    (show (0 : ℝ) ≤ 1 / 2 by norm_num) largestSingular_example (show (0 : ℝ) < 1 / 2 by norm_num) (.traceNorm 1 2 1 svd 1) (.pen (.l1Norm 1)) hsvd
    (show (0 : ℝ) ≤ 1 by norm_num) rfl
  refine ⟨xs, fun x0 => ?_⟩
  obtain ⟨t0, ht0, h⟩ := h x0 (1 / 1000) (by norm_num)
  obtain ⟨m0, h⟩ := h t0 ht0 le_rfl
  refine ⟨t0, ht0, m0, fun m hm => ?_⟩
  obtain ⟨res, x, r1, r2, r3, -, r4⟩ := h ⟨_, x0, _, _, t0, m, none, false, some (2 / 51), 100, 7 / 10, none⟩ rfl rfl rfl rfl
    (by rw [hl]; norm_num) (by norm_num) rfl (by norm_num) rfl rfl hm
  exact ⟨res, x, r1, r2, r3, r4⟩

end Copt
