import Mathlib.Algebra.Order.Chebyshev
import Verif.Model.SplitObjects
import Verif.Props.LmoObjects
import Verif.Props.ThreeSplit
import Verif.Proof.Duality

/-!
# C102: three-operator splitting on the losses, penalties and constraints of the library
-/

set_option linter.unusedSectionVars false

namespace Copt

open Spec
open scoped InnerProductSpace

section General
variable {E : Type} [NormedAddCommGroup E] [InnerProductSpace ℝ E]

/-- Subgradients of a Lipschitz function are bounded. -/
theorem subgrad_norm_le {h : E → ℝ} {l : ℝ} (hl : 0 ≤ l) (hlip : ∀ a b, h a - h b ≤ l * ‖a - b‖) {x u : E} (hu : IsSubgrad ⟨Set.univ, h⟩ x u) : ‖u‖ ≤ l := by
  have h1 := hu.2 (x + u) (Set.mem_univ _)
  have h2 := hlip (x + u) x
  simp only [add_sub_cancel_left, real_inner_self_eq_norm_sq] at h1 h2
  by_contra hc
  push Not at hc
  have : 0 < ‖u‖ := lt_of_le_of_lt hl hc
  nlinarith

/-- A gradient step with step at most `2/L` is nonexpansive. -/
theorem grad_step_nonexpansive {f : E → ℝ} {g : E → E} {L s : ℝ} (hL : 0 < L) (hs : 0 < s) (hsL : s * L < 2) (hf : ConvexGrad f g) (hq : UpperQuad f g L)
    (x y : E) : ‖(x - s • g x) - (y - s • g y)‖ ≤ ‖x - y‖ := by
  have h1 := cocoercive hL hf hq x y
  refine le_of_sq_le_sq ?_ (norm_nonneg _)
  have e : (x - s • g x) - (y - s • g y) = (x - y) + (-s) • (g x - g y) := by module
  rw [e, norm_add_smul_sq, real_inner_comm]
  have h2 : s * (1 / L * ‖g x - g y‖ ^ 2) ≤ s * ⟪g x - g y, x - y⟫_ℝ := mul_le_mul_of_nonneg_left h1 hs.le
  have h3 : s ^ 2 * ‖g x - g y‖ ^ 2 ≤ 2 * (s * (1 / L * ‖g x - g y‖ ^ 2)) := by
    have h4 : s ^ 2 ≤ 2 * (s * (1 / L)) := by
      have : s ^ 2 = s * (s * L) * (1 / L) := by field_simp
      rw [this]
      have h5 : 0 ≤ s * (1 / L) := by positivity
      nlinarith
    have := mul_le_mul_of_nonneg_right h4 (sq_nonneg ‖g x - g y‖)
    linarith
  linarith

/-- Three-operator splitting with a fixed step below `2/L` and a Lipschitz second penalty, from a primal minimiser alone. -/
theorem three_split_solves [CompleteSpace E] {P : TSArgs E} {G : ExtFun E} {h : E → ℝ} (hE : ExactProx12 P G ⟨Set.univ, h⟩) {f : E → ℝ} {g : E → E}
    (hgz : ∀ x, (P.fg x).2 = g x) (hf : ConvexGrad f g) {L s l : ℝ} (hL : 0 < L) (hq : UpperQuad f g L) (hs : 0 < s) (hsL : s * L < 2)
    (hls : P.lineSearch = false) (hst : P.stepSize = some s) (hfac : 0 < P.factor) (hl : 0 ≤ l) (hlip : ∀ a b, h a - h b ≤ l * ‖a - b‖)
    {xs : E} (hxs : xs ∈ G.dom) (hmin : ∀ x ∈ G.dom, f xs + G.val xs + h xs ≤ f x + G.val x + h x) (hcb : P.callback = none) (hbt : 0 < P.btIter)
    (htol : 0 < P.tol) (hiter : (‖P.x0 - xs‖ + 3 * s * l) ^ 2 < P.tol ^ 2 * ((1 - s * L / 2) * s ^ 2 * (P.maxIter - 1))) :
    ∃ res x, minimizeThreeSplit P = .ok res ∧ res.success = true ∧ res.x = some x ∧ x ∈ G.dom ∧
      f x + G.val x + h x - (f xs + G.val xs + h xs) ≤ P.tol * (‖P.x0 - xs‖ + 7 * s * l + s * P.tol) := by
  have hcont : Continuous h := by
    have : LipschitzWith ⟨l, hl⟩ h := LipschitzWith.of_dist_le_mul fun a b => by
      rw [Real.dist_eq, dist_eq_norm, abs_le]
      have h1 := hlip a b
      have h2 := hlip b a
      rw [norm_sub_rev] at h2
      exact ⟨by show -(l * ‖a - b‖) ≤ _; linarith, h1⟩
    exact this.continuous
  obtain ⟨us, hus, hgs⟩ := exists_saddle (LinearMap.id : E →ₗ[ℝ] E) hE.convG hf hq hE.convH hcont hxs hmin
  have hus : IsSubgrad ⟨Set.univ, h⟩ xs us := hus
  have hgs : IsSubgrad G xs (-us - g xs) := hgs us fun x => rfl
  have hul := subgrad_norm_le hl hlip hus
  obtain ⟨hfej, c, hcert, -, -, -, hsucc⟩ := C74_converges hE hgz hf hL hq hs hsL hls hst hfac hus hgs
  have hfix := tsIter_fixed hs hls hst
  have hprox : ∀ k, IsProxPt G s ((tsIter P k).z - s • ((tsIter P k).u + g (tsIter P k).z)) (tsIter P (k + 1)).x := by
    intro k
    rw [(hfix k).2.2.1, hgz]
    exact hE.prox1 _ _ hs
  have hsub : ∀ k, 1 ≤ k → IsSubgrad ⟨Set.univ, h⟩ (tsIter P k).z (tsIter P k).u := by
    intro k hk
    obtain ⟨j, rfl⟩ := Nat.exists_eq_add_one_of_ne_zero (by omega : k ≠ 0)
    exact tsIter_subgrad ⟨hfac, fun s' h => by rw [hst] at h; cases h; exact hs⟩ hE.convH hE.prox2 (hfix (j + 1)).1
  have hproxs : IsProxPt G s (xs - s • (us + g xs)) xs := by
    have := hgs.prox hs
    convert this using 1
    module
  -- the first point
  have hw1 : ‖tsPoint P s 1 - (xs + s • us)‖ ≤ ‖P.x0 - xs‖ + 3 * s * l := by
    have e0 : (tsIter P 0).u = 0 := rfl
    have h1 : tsPoint P s 1 = (tsIter P 1).x := by
      have := (hfix 0).2.2.2.1
      rw [e0, smul_zero, add_zero] at this
      exact this
    have hz0 : (tsIter P 0).z = P.p2 P.x0 s := by
      show P.p2 P.x0 P.step0 = _
      unfold TSArgs.step0; rw [hst]
    have h2 : ‖(tsIter P 0).z - xs‖ ≤ ‖P.x0 - xs‖ + s * l := by
      rw [hz0]
      have h3 := (hE.prox2 P.x0 s hs).nonexpansive hE.convH hs (hus.prox hs)
      refine h3.trans ?_
      rw [← sub_sub]
      refine (norm_sub_le _ _).trans ?_
      rw [norm_smul, Real.norm_eq_abs, abs_of_pos hs]
      have := mul_le_mul_of_nonneg_left hul hs.le
      linarith
    have h4 : ‖(tsIter P 1).x - xs‖ ≤ ‖(tsIter P 0).z - s • g (tsIter P 0).z - (xs - s • (us + g xs))‖ := by
      have := (hprox 0).nonexpansive hE.convG hs hproxs
      simp only [e0, zero_add] at this
      exact this
    have h5 : ‖(tsIter P 0).z - s • g (tsIter P 0).z - (xs - s • (us + g xs))‖ ≤ ‖(tsIter P 0).z - xs‖ + s * l := by
      have e : (tsIter P 0).z - s • g (tsIter P 0).z - (xs - s • (us + g xs)) = (((tsIter P 0).z - s • g (tsIter P 0).z) - (xs - s • g xs)) + s • us := by module
      rw [e]
      refine (norm_add_le _ _).trans (add_le_add (grad_step_nonexpansive hL hs hsL hf hq _ _) ?_)
      rw [norm_smul, Real.norm_eq_abs, abs_of_pos hs]
      exact mul_le_mul_of_nonneg_left hul hs.le
    rw [h1, ← sub_sub]
    refine (norm_sub_le _ _).trans ?_
    rw [norm_smul, Real.norm_eq_abs, abs_of_pos hs]
    have := mul_le_mul_of_nonneg_left hul hs.le
    linarith
  have hwk : ∀ k, ‖tsPoint P s (k + 1) - (xs + s • us)‖ ≤ ‖P.x0 - xs‖ + 3 * s * l := by
    intro k
    induction k with
    | zero => exact hw1
    | succ k ih => exact (hfej (k + 1) (by omega)).trans ih
  have hmax : 0 < P.maxIter := by
    rcases Nat.eq_zero_or_pos P.maxIter with h0 | h0
    · rw [h0] at hiter
      have : 0 < (1 - s * L / 2) * s ^ 2 := mul_pos (by linarith) (by positivity)
      have h1 := sq_nonneg (‖P.x0 - xs‖ + 3 * s * l)
      push_cast at hiter
      have h2 : 0 ≤ P.tol ^ 2 * ((1 - s * L / 2) * s ^ 2) := by positivity
      nlinarith
    · exact h0
  obtain ⟨res, hres⟩ := minimizeTS_total hbt hmax
  have hok := hsucc res hres hcb htol (lt_of_le_of_lt (pow_le_pow_left₀ (norm_nonneg _) hw1 2) hiter)
  obtain ⟨-, -, hx, -, -, -, -, -, hsw, -, -, hw, -⟩ := minimizeTS_ok hres
  obtain ⟨-, hit, c', hc', hlt⟩ := hw.mp (hsw.mp hok)
  set k := res.nit with hk
  rw [(hfix (k + 1)).1] at hx
  refine ⟨res, (tsIter P (k + 1)).x, hres, hok, by simpa using hx, (hprox k).1, ?_⟩
  set x := (tsIter P (k + 1)).x with hxdef
  set z := (tsIter P k).z with hz
  set u := (tsIter P k).u with hu
  have hcx : ‖x - z‖ / s = c' := by
    have := (hfix k).2.2.2.2
    rw [hc'] at this
    exact (Option.some.inj this).symm
  have hxz : ‖x - z‖ = s * c' := by rw [← hcx]; field_simp
  have hc0 : 0 ≤ c' := by rw [← hcx]; positivity
  have hun := subgrad_norm_le hl hlip (hsub k hit)
  -- distance to the minimiser
  have hdist : ‖x - xs‖ ≤ ‖P.x0 - xs‖ + 5 * s * l := by
    have h1 := hwk k
    have h2 : tsPoint P s (k + 1) = x + s • u := (hfix k).2.2.2.1
    rw [h2] at h1
    have e : x - xs = (x + s • u - (xs + s • us)) - s • u + s • us := by module
    rw [e]
    refine (norm_add_le _ _).trans ?_
    have h3 := norm_sub_le (x + s • u - (xs + s • us)) (s • u)
    rw [norm_smul s u, Real.norm_eq_abs, abs_of_pos hs] at h3
    rw [norm_smul s us, Real.norm_eq_abs, abs_of_pos hs]
    have h4 := mul_le_mul_of_nonneg_left hul hs.le
    have h5 := mul_le_mul_of_nonneg_left hun hs.le
    linarith
  -- the objective
  have hp := ((hprox k).subgrad hE.convG hs).2 xs hxs
  have hh := (hsub k hit).2 xs (Set.mem_univ _)
  have hfz := hf z xs
  have hqx := hq z x
  have hhx := hlip x z
  simp only at hh
  have hqn : -(l * ‖x - z‖) ≤ ⟪u, x - z⟫_ℝ := by
    have h1 := abs_real_inner_le_norm u (x - z)
    have h2 := mul_le_mul_of_nonneg_right hun (norm_nonneg (x - z))
    have := neg_abs_le ⟪u, x - z⟫_ℝ
    linarith
  have hp' : ⟪s⁻¹ • (z - s • (u + g z) - x), xs - x⟫_ℝ = -(s⁻¹ * ⟪x - z, xs - x⟫_ℝ) - ⟪u, xs - x⟫_ℝ - ⟪g z, xs - x⟫_ℝ := by
    have e : s⁻¹ • (z - s • (u + g z) - x) = -(s⁻¹ • (x - z)) - u - g z := by
      rw [show z - s • (u + g z) - x = -(x - z) - s • (u + g z) by abel, smul_sub, smul_smul, inv_mul_cancel₀ hs.ne', one_smul, smul_neg]
      abel
    rw [e, inner_sub_left, inner_sub_left, inner_neg_left, inner_smul_left]
    rfl
  rw [hp'] at hp
  have hcs : s⁻¹ * ⟪x - z, xs - x⟫_ℝ ≤ c' * ‖x - xs‖ := by
    have h1 := real_inner_le_norm (x - z) (xs - x)
    rw [hxz, norm_sub_rev xs x] at h1
    rw [inv_mul_le_iff₀ hs]
    linarith
  have e1 : ⟪u, xs - z⟫_ℝ = ⟪u, xs - x⟫_ℝ + ⟪u, x - z⟫_ℝ := by rw [← inner_add_right]; congr 1; abel
  have e2 : ⟪g z, xs - z⟫_ℝ = ⟪g z, xs - x⟫_ℝ + ⟪g z, x - z⟫_ℝ := by rw [← inner_add_right]; congr 1; abel
  rw [e1] at hh
  rw [e2] at hfz
  rw [hxz] at hqx hhx hqn
  have hmain : f x + G.val x + h x - (f xs + G.val xs + h xs) ≤ c' * ‖x - xs‖ + L / 2 * (s * c') ^ 2 + 2 * (l * (s * c')) := by linarith
  refine hmain.trans ?_
  have h1 : c' * ‖x - xs‖ ≤ P.tol * (‖P.x0 - xs‖ + 5 * s * l) := mul_le_mul hlt.le hdist (norm_nonneg _) htol.le
  have h2 : L / 2 * (s * c') ^ 2 ≤ s * P.tol ^ 2 := by
    have e : L / 2 * (s * c') ^ 2 = (s * L / 2) * (s * c' ^ 2) := by ring
    rw [e]
    have h3 : s * c' ^ 2 ≤ s * P.tol ^ 2 := mul_le_mul_of_nonneg_left (pow_le_pow_left₀ hc0 hlt.le 2) hs.le
    have h4 : 0 ≤ s * c' ^ 2 := by positivity
    nlinarith
  have h3 : l * (s * c') ≤ l * (s * P.tol) := mul_le_mul_of_nonneg_left (mul_le_mul_of_nonneg_left hlt.le hs.le) hl
  nlinarith

end General

variable {n d M N k : ℕ}

/-! ### The documented functions -/

/-- The documented function of the operator. -/
noncomputable def SplitObj.fn : {d : ℕ} → SplitObj d → ExtFun (EuclideanSpace ℝ (Fin d))
  | _, .pen p => p.fn
  | _, .tvCols R C beta _ => ⟨Set.univ, fun x => beta * Spec.tvCols R C (WithLp.ofLp x)⟩
  | _, .tvRows R C beta _ => ⟨Set.univ, fun x => beta * Spec.tvRows R C (WithLp.ofLp x)⟩
  | _, .traceNorm M N _ _ alpha => ⟨Set.univ, fun x => alpha * nuc (unravel (M := M) (N := N) (WithLp.ofLp x))⟩

/-- Admissible parameters; `svd` must return a singular value decomposition of every matrix. -/
def SplitObj.Good : {d : ℕ} → SplitObj d → Prop
  | _, .pen p => p.Good
  | _, .tvCols R _ beta _ => 0 ≤ beta ∧ 0 < R
  | _, .tvRows _ C beta _ => 0 ≤ beta ∧ 0 < C
  | _, .traceNorm _ _ _ svd alpha => 0 ≤ alpha ∧ ∀ X, IsSvd X (svd X).U (svd X).s (svd X).Vt

/-- A Lipschitz constant of the documented function for the Euclidean norm; none for the constraints. -/
noncomputable def SplitObj.lip : {d : ℕ} → SplitObj d → Option ℝ
  | d, .pen (.l1Norm alpha) => some (alpha * Real.sqrt d)
  | _, .pen (.groupL1 alpha groups) => some (alpha * groups.length)
  | d, .pen (.fusedLasso alpha _) => some (alpha * (2 * Real.sqrt d))
  | _, .pen _ => none
  | _, .tvCols R C beta _ => some (beta * (2 * Real.sqrt ((R * C : ℕ) : ℝ)))
  | _, .tvRows R C beta _ => some (beta * (2 * Real.sqrt ((R * C : ℕ) : ℝ)))
  | _, .traceNorm M N _ _ alpha => some (alpha * Real.sqrt ((M * N : ℕ) : ℝ))

theorem nuc_semi : IsSemi fun x : Fin (M * N) → ℝ => nuc (unravel (M := M) (N := N) x) := by
  have hadd : ∀ x y : Fin (M * N) → ℝ, nuc (unravel (M := M) (N := N) (x + y)) ≤ nuc (unravel (M := M) (N := N) x) + nuc (unravel (M := M) (N := N) y) := by
    intro x y
    refine nuc_le fun Z hZ => ?_
    rw [show unravel (M := M) (N := N) (x + y) = unravel x + unravel y from rfl, frob_add_left]
    exact add_le_add (frob_le_nuc _ hZ) (frob_le_nuc _ hZ)
  have hneg : ∀ Z : Matrix (Fin M) (Fin N) ℝ, OpBound 1 Z → OpBound 1 (-Z) := by
    intro Z hZ v
    have := hZ v
    rw [Matrix.neg_mulVec]
    simpa [dot] using this
  have hle : ∀ (c : ℝ) (x : Fin (M * N) → ℝ), nuc (unravel (M := M) (N := N) (c • x)) ≤ |c| * nuc (unravel (M := M) (N := N) x) := by
    intro c x
    refine nuc_le fun Z hZ => ?_
    rw [show unravel (M := M) (N := N) (c • x) = c • unravel x from rfl, frob_smul_left]
    rcases le_total 0 c with hc | hc
    · rw [abs_of_nonneg hc]
      exact mul_le_mul_of_nonneg_left (frob_le_nuc _ hZ) hc
    · rw [abs_of_nonpos hc]
      have h1 := frob_le_nuc (unravel (M := M) (N := N) x) (hneg Z hZ)
      have h2 : frob (unravel (M := M) (N := N) x) (-Z) = -frob (unravel (M := M) (N := N) x) Z := by
        have := frob_smul_right (-1) (unravel (M := M) (N := N) x) Z
        rw [neg_one_smul, neg_one_mul] at this
        exact this
      rw [h2] at h1
      have := mul_le_mul_of_nonneg_left h1 (neg_nonneg.mpr hc)
      linarith
  refine ⟨hadd, fun c x => le_antisymm (hle c x) ?_⟩
  rcases eq_or_ne c 0 with rfl | hc
  · rw [abs_zero, zero_mul]; exact nuc_nonneg _
  · have h1 := hle c⁻¹ (c • x)
    rw [smul_smul, inv_mul_cancel₀ hc, one_smul, abs_inv] at h1
    have h2 := mul_le_mul_of_nonneg_left h1 (abs_nonneg c)
    rwa [← mul_assoc, mul_inv_cancel₀ (abs_ne_zero.mpr hc), one_mul] at h2

theorem norm1_le_sqrt (x : EuclideanSpace ℝ (Fin d)) : norm1 (WithLp.ofLp x) ≤ Real.sqrt d * ‖x‖ := by
  have h1 : norm1 (WithLp.ofLp x) ^ 2 ≤ d * ‖x‖ ^ 2 := by
    rw [norm_sq_ofLp]
    unfold norm1 dot
    have := sq_sum_le_card_mul_sum_sq (s := Finset.univ) (f := fun i : Fin d => |WithLp.ofLp x i|)
    simp only [sq_abs, Finset.card_univ, Fintype.card_fin] at this
    refine this.trans (le_of_eq ?_)
    congr 1
    exact Finset.sum_congr rfl fun i _ => sq _
  refine le_of_sq_le_sq ?_ (by positivity)
  rw [mul_pow, Real.sq_sqrt (Nat.cast_nonneg _)]
  exact h1

theorem blockNorm_le_norm (g : Finset (Fin d)) (x : EuclideanSpace ℝ (Fin d)) : blockNorm g (WithLp.ofLp x) ≤ ‖x‖ := by
  unfold blockNorm
  refine Real.sqrt_le_iff.mpr ⟨norm_nonneg _, ?_⟩
  rw [norm_sq_ofLp]
  unfold dot
  refine (Finset.sum_le_sum_of_subset_of_nonneg (Finset.subset_univ g) fun i _ _ => sq_nonneg _).trans (le_of_eq ?_)
  exact Finset.sum_congr rfl fun i _ => sq _

theorem tvRows_le {R C : ℕ} (x : Fin (R * C) → ℝ) : tvRows R C x ≤ 2 * ∑ k, |x k| := by
  rw [norm1_pix, Finset.mul_sum]
  exact Finset.sum_le_sum fun j _ => tv1_le_norm1 _

/-- A seminorm bounded by a multiple of the Euclidean norm is Lipschitz. -/
theorem IsSemi.lip {g : (Fin d → ℝ) → ℝ} (hg : IsSemi g) {a l : ℝ} (ha : 0 ≤ a) (h : ∀ x : EuclideanSpace ℝ (Fin d), g (WithLp.ofLp x) ≤ l * ‖x‖)
    (x y : EuclideanSpace ℝ (Fin d)) : a * g (WithLp.ofLp x) - a * g (WithLp.ofLp y) ≤ a * l * ‖x - y‖ := by
  have h1 := hg.add (WithLp.ofLp y) (WithLp.ofLp (x - y))
  rw [← WithLp.ofLp_add, add_sub_cancel] at h1
  have h2 := mul_le_mul_of_nonneg_left (h1.trans (add_le_add_right (h (x - y)) _)) ha
  linarith

/-- **C102 (operators).** With admissible parameters the documented function is convex, every call of the operator with a positive
step returns, its value is the proximal point of the documented function, and when `lip` is defined the function is finite
everywhere and Lipschitz with that constant. -/
theorem C102_prox_exact (o : SplitObj d) (ho : o.Good) : o.fn.IsConvex ∧ IsProxOf o.fn o.proxE ∧
    (∀ x step, 0 < step → ∃ p, o.prox x step = .ok p) ∧
    ∀ l, o.lip = some l → 0 ≤ l ∧ o.fn = ⟨Set.univ, o.fn.val⟩ ∧ ∀ a b, o.fn.val a - o.fn.val b ≤ l * ‖a - b‖ := by
  have mk : ∀ {d : ℕ} (o : SplitObj d) (h : ∀ (x : EuclideanSpace ℝ (Fin d)) step, 0 < step → ∃ p, o.prox (WithLp.ofLp x) step = .ok p ∧
      IsProxPt o.fn step x (WithLp.toLp 2 p)), IsProxOf o.fn o.proxE ∧ (∀ x step, 0 < step → ∃ p, o.prox x step = .ok p) := by
    intro d o h
    refine ⟨fun v s hs => ?_, fun x step hs => ?_⟩
    · obtain ⟨p, h1, h2⟩ := h v s hs
      have : o.proxE v s = WithLp.toLp 2 p := by unfold SplitObj.proxE; rw [h1]
      rw [this]; exact h2
    · obtain ⟨p, h1, -⟩ := h (WithLp.toLp 2 x) step hs
      exact ⟨p, h1⟩
  have hn1 : ∀ {d : ℕ} (x : EuclideanSpace ℝ (Fin d)), 2 * ∑ k, |WithLp.ofLp x k| ≤ 2 * Real.sqrt d * ‖x‖ := by
    intro d x
    have := norm1_le_sqrt x
    unfold norm1 at this
    linarith
  cases o with
  | pen p =>
    obtain ⟨h1, h2, h3, -⟩ := C92_prox_exact p ho
    refine ⟨h1, h2, h3, fun l hl => ?_⟩
    cases p with
    | l1Norm alpha =>
      simp only [SplitObj.lip, Option.some.injEq] at hl
      subst hl
      have ha : 0 ≤ alpha := ho
      exact ⟨by positivity, rfl, norm1_semi.lip ha norm1_le_sqrt⟩
    | groupL1 alpha groups =>
      simp only [SplitObj.lip, Option.some.injEq] at hl
      subst hl
      have ha : 0 ≤ alpha := ho.1
      refine ⟨by positivity, rfl, fun a b => ?_⟩
      have hsum : ∀ gs : List (List ℕ), (gs.map fun g => blockNorm (featSet g) (WithLp.ofLp a)).sum -
          (gs.map fun g => blockNorm (featSet g) (WithLp.ofLp b)).sum ≤ gs.length * ‖a - b‖ := by
        intro gs
        induction gs with
        | nil => simp
        | cons g gs ih =>
          simp only [List.map_cons, List.sum_cons, List.length_cons]
          have h4 := (blockNorm_semi (n := d) (featSet g)).lip zero_le_one (l := 1) (fun x => by rw [one_mul]; exact blockNorm_le_norm _ x) a b
          push_cast
          linarith
      show alpha * _ - alpha * _ ≤ _
      have := mul_le_mul_of_nonneg_left (hsum groups) ha
      linarith
    | fusedLasso alpha junk =>
      simp only [SplitObj.lip, Option.some.injEq] at hl
      subst hl
      have ha : 0 ≤ alpha := ho.1
      exact ⟨by positivity, rfl, tv1_semi.lip ha fun x => (tv1_le_norm1 _).trans (hn1 x)⟩
    | l1Ball alpha => simp [SplitObj.lip] at hl
    | l2Ball alpha => simp [SplitObj.lip] at hl
    | linfBall alpha => simp [SplitObj.lip] at hl
    | simplex s => simp [SplitObj.lip] at hl
  | tvCols R C beta junk =>
    obtain ⟨hb, hR⟩ := ho
    obtain ⟨h1, h2⟩ := mk (.tvCols R C beta junk) fun x step hs => by
      obtain ⟨out, e, h⟩ := proxCols_spec hR (junk (WithLp.ofLp x) step) (mul_nonneg hs.le hb) (WithLp.ofLp x)
      refine ⟨out, by simp only [SplitObj.prox]; rw [e]; rfl, ?_⟩
      refine isProx_ext (g := fun y => beta * tvCols R C y) (isProx_of_subgrad fun y => ?_)
      rw [← mul_assoc, ← mul_assoc]; exact h y
    refine ⟨(semi_scale tvCols_semi hb).extConvex, h1, h2, fun l hl => ?_⟩
    simp only [SplitObj.lip, Option.some.injEq] at hl
    subst hl
    exact ⟨by positivity, rfl, tvCols_semi.lip hb fun x => (tvCols_le _).trans (hn1 x)⟩
  | tvRows R C beta junk =>
    obtain ⟨hb, hC⟩ := ho
    obtain ⟨h1, h2⟩ := mk (.tvRows R C beta junk) fun x step hs => by
      obtain ⟨out, e, h⟩ := proxRows_spec hC (junk (WithLp.ofLp x) step) (mul_nonneg hs.le hb) (WithLp.ofLp x)
      refine ⟨out, by simp only [SplitObj.prox]; rw [e]; rfl, ?_⟩
      refine isProx_ext (g := fun y => beta * tvRows R C y) (isProx_of_subgrad fun y => ?_)
      rw [← mul_assoc, ← mul_assoc]; exact h y
    refine ⟨(semi_scale tvRows_semi hb).extConvex, h1, h2, fun l hl => ?_⟩
    simp only [SplitObj.lip, Option.some.injEq] at hl
    subst hl
    exact ⟨by positivity, rfl, tvRows_semi.lip hb fun x => (tvRows_le _).trans (hn1 x)⟩
  | traceNorm M N k svd alpha =>
    obtain ⟨ha, hsvd⟩ := ho
    obtain ⟨h1, h2⟩ := mk (.traceNorm M N k svd alpha) fun x step hs =>
      ⟨_, rfl, isProx_ext (g := fun y => alpha * nuc (unravel (M := M) (N := N) y)) (C18_trace_norm_prox svd alpha step ha hs.le _ (hsvd _))⟩
    refine ⟨(semi_scale nuc_semi ha).extConvex, h1, h2, fun l hl => ?_⟩
    simp only [SplitObj.lip, Option.some.injEq] at hl
    subst hl
    refine ⟨by positivity, rfl, nuc_semi.lip ha fun x => ?_⟩
    refine le_trans (nuc_le fun Z hZ => frob_le_sum_abs hZ) (le_trans (le_of_eq ?_) (norm1_le_sqrt x))
    exact (norm1_pix (WithLp.ofLp x)).symm

/-- **C102.** `minimize_three_split(f.f_grad, x0, o1.prox, o2.prox, step_size=1/f.lipschitz, line_search=False)`, with any loss, any data, any
penalty or constraint as first operator and any penalty with Lipschitz constant `l` as second one, no callback, and `xs` any
minimiser of the documented objective `f + g + h`: with `2 (L ‖x0 - xs‖ + 3 l)² < tol² (max_iter - 1)` the run returns and reports success, the
returned point is in the domain of `g`, and its objective exceeds the minimum by at most `tol (‖x0 - xs‖ + 7 l / L + tol / L)`. -/
theorem C102_three_split (f : LossObj n d) (hf : f.Good) {s : ℝ} (hs : IsLargestSingular f.mat s) (hL : 0 < f.lipschitz s)
    (o1 o2 : SplitObj d) (h1 : o1.Good) (h2 : o2.Good) {l : ℝ} (hl : o2.lip = some l) (P : TSArgs (EuclideanSpace ℝ (Fin d)))
    (hfg : P.fg = f.oracle) (hp1 : P.prox1 = some o1.proxE) (hp2 : P.prox2 = some o2.proxE) (hls : P.lineSearch = false)
    (hst : P.stepSize = some (1 / f.lipschitz s)) (hfac : 0 < P.factor) (hcb : P.callback = none) (hbt : 0 < P.btIter) (htol : 0 < P.tol)
    {xs : EuclideanSpace ℝ (Fin d)} (hxs : xs ∈ o1.fn.dom)
    (hmin : ∀ x ∈ o1.fn.dom, f.fn xs + o1.fn.val xs + o2.fn.val xs ≤ f.fn x + o1.fn.val x + o2.fn.val x)
    (hiter : 2 * (f.lipschitz s * ‖P.x0 - xs‖ + 3 * l) ^ 2 < P.tol ^ 2 * (P.maxIter - 1)) :
    ∃ res x, minimizeThreeSplit P = .ok res ∧ res.success = true ∧ res.x = some x ∧ x ∈ o1.fn.dom ∧
      f.fn x + o1.fn.val x + o2.fn.val x - (f.fn xs + o1.fn.val xs + o2.fn.val xs) ≤
        P.tol * (‖P.x0 - xs‖ + 7 * l / f.lipschitz s + P.tol / f.lipschitz s) := by
  obtain ⟨-, hconv, hq, -⟩ := C92_loss f hf hs
  obtain ⟨c1, q1, -⟩ := C102_prox_exact o1 h1
  obtain ⟨c2, q2, -, h3⟩ := C102_prox_exact o2 h2
  obtain ⟨hl0, e, hlip⟩ := h3 l hl
  have hE : ExactProx12 P o1.fn ⟨Set.univ, o2.fn.val⟩ := by
    refine ⟨c1, e ▸ c2, ?_, ?_⟩
    · unfold TSArgs.p1; rw [hp1]; exact q1
    · unfold TSArgs.p2; rw [hp2]; exact e ▸ q2
  set L := f.lipschitz s with hLdef
  obtain ⟨res, x, r1, r2, r3, r4, r5⟩ := three_split_solves hE (f := f.fn) (g := f.gradE) (fun x => by rw [hfg]; rfl) hconv hL hq (one_div_pos.mpr hL)
    (by rw [one_div, inv_mul_cancel₀ hL.ne']; norm_num) hls hst hfac hl0 hlip hxs hmin hcb hbt htol (by
      rw [show (1 : ℝ) - 1 / L * L / 2 = 1 / 2 by field_simp; norm_num]
      have e1 : (‖P.x0 - xs‖ + 3 * (1 / L) * l) ^ 2 = 2 * (L * ‖P.x0 - xs‖ + 3 * l) ^ 2 * (1 / (2 * L ^ 2)) := by field_simp
      have e2 : P.tol ^ 2 * (1 / 2 * (1 / L) ^ 2 * (P.maxIter - 1)) = P.tol ^ 2 * (P.maxIter - 1) * (1 / (2 * L ^ 2)) := by field_simp
      rw [e1, e2]
      exact mul_lt_mul_of_pos_right hiter (by positivity))
  refine ⟨res, x, r1, r2, r3, r4, r5.trans (le_of_eq ?_)⟩
  field_simp

/-- **C102 (total variation deblurring).** The call of plot_tv_deblurring.py with `line_search=False`, any loss, any non-empty image, any `beta ≥ 0`
and positive tolerance: the returned image solves `min f(x) + beta TV(x)`, `TV` the anisotropic 2-D total variation, to the accuracy of `C102_three_split`. -/
theorem C102_tv_deblurring {R C : ℕ} (hR : 0 < R) (hC : 0 < C) (f : LossObj n (R * C)) (hf : f.Good) {s : ℝ} (hs : IsLargestSingular f.mat s)
    (hL : 0 < f.lipschitz s) {beta : ℝ} (hb : 0 ≤ beta) (junkC : (Fin (R * C) → ℝ) → ℝ → TVJunk R C C R ℝ)
    (junkR : (Fin (R * C) → ℝ) → ℝ → TVJunk R C R C ℝ) (P : TSArgs (EuclideanSpace ℝ (Fin (R * C))))
    (hfg : P.fg = f.oracle) (hp1 : P.prox1 = some (SplitObj.tvCols R C beta junkC).proxE) (hp2 : P.prox2 = some (SplitObj.tvRows R C beta junkR).proxE)
    (hls : P.lineSearch = false) (hst : P.stepSize = some (1 / f.lipschitz s)) (hfac : 0 < P.factor) (hcb : P.callback = none) (hbt : 0 < P.btIter)
    (htol : 0 < P.tol) {xs : EuclideanSpace ℝ (Fin (R * C))}
    (hmin : ∀ x, f.fn xs + beta * tv2 R C (WithLp.ofLp xs) ≤ f.fn x + beta * tv2 R C (WithLp.ofLp x))
    (hiter : 2 * (f.lipschitz s * ‖P.x0 - xs‖ + 3 * (beta * (2 * Real.sqrt ((R * C : ℕ) : ℝ)))) ^ 2 < P.tol ^ 2 * (P.maxIter - 1)) :
    ∃ res x, minimizeThreeSplit P = .ok res ∧ res.success = true ∧ res.x = some x ∧
      f.fn x + beta * tv2 R C (WithLp.ofLp x) - (f.fn xs + beta * tv2 R C (WithLp.ofLp xs)) ≤
        P.tol * (‖P.x0 - xs‖ + 7 * (beta * (2 * Real.sqrt ((R * C : ℕ) : ℝ))) / f.lipschitz s + P.tol / f.lipschitz s) := by
  have e : ∀ x : EuclideanSpace ℝ (Fin (R * C)), f.fn x + beta * tv2 R C (WithLp.ofLp x) =
      f.fn x + (SplitObj.tvCols R C beta junkC).fn.val x + (SplitObj.tvRows R C beta junkR).fn.val x := by
    intro x
    show _ = f.fn x + beta * tvCols R C (WithLp.ofLp x) + beta * tvRows R C (WithLp.ofLp x)
    unfold tv2; ring
  obtain ⟨res, x, r1, r2, r3, -, r5⟩ := C102_three_split f hf hs hL (.tvCols R C beta junkC) (.tvRows R C beta junkR) ⟨hb, hR⟩ ⟨hb, hC⟩ rfl P hfg hp1 hp2 hls hst hfac
    hcb hbt htol (xs := xs) (Set.mem_univ _) (fun x _ => by rw [← e, ← e]; exact hmin x) hiter
  exact ⟨res, x, r1, r2, r3, by rw [e, e]; exact r5⟩

end Copt
