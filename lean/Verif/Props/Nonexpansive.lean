import Verif.Props.Constraint
import Verif.Props.Penalty
import Verif.Props.TV
import Mathlib.Analysis.InnerProductSpace.PiL2

/-! # Projections and proximal operators are nonexpansive (C73) -/

set_option linter.unusedSectionVars false

namespace Copt

open Spec

section General
variable {K : Type} [Field K] [LinearOrder K] [IsStrictOrderedRing K] {n : ℕ}

theorem dot_cross (v w p q : Fin n → K) (h1 : dot (v - p) (q - p) + dot (w - q) (p - q) ≤ 0) : sqDist p q ≤ sqDist v w := by
  have e : sqDist v w = sqDist p q + sqDist (v - p) (w - q) - 2 * (dot (v - p) (q - p) + dot (w - q) (p - q)) := by
    unfold sqDist dot
    rw [← Finset.sum_add_distrib, ← Finset.sum_add_distrib, Finset.mul_sum, ← Finset.sum_sub_distrib]
    refine Finset.sum_congr rfl fun i _ => ?_
    simp only [Pi.sub_apply]; ring
  rw [e]
  linarith [sqDist_nonneg (v - p) (w - q)]

/-- Projections onto convex sets are nonexpansive. -/
theorem proj_nonexpansive {C : Set (Fin n → K)} (hC : ∀ x ∈ C, ∀ y ∈ C, ∀ t : K, 0 ≤ t → t ≤ 1 → (1 - t) • x + t • y ∈ C) {v w p q : Fin n → K}
    (hp : IsProj C v p) (hq : IsProj C w q) : sqDist p q ≤ sqDist v w :=
  dot_cross v w p q (by linarith [hp.vi hC q hq.1, hq.vi hC p hp.1])

/-- Proximal points of convex functions are nonexpansive. -/
theorem prox_nonexpansive {pen : (Fin n → K) → K} {s : K} (hs : 0 ≤ s) (hpen : ∀ x y : Fin n → K, ∀ t : K, 0 ≤ t → t ≤ 1 →
      pen ((1 - t) • x + t • y) ≤ (1 - t) * pen x + t * pen y) {v w p q : Fin n → K} (hp : IsProx pen s v p) (hq : IsProx pen s w q) :
    sqDist p q ≤ sqDist v w :=
  dot_cross v w p q (by linarith [hp.subgrad hs hpen q, hq.subgrad hs hpen p])

/-- The projection of a point of the set is that point. -/
theorem proj_of_mem {C : Set (Fin n → K)} {v p : Fin n → K} (hp : IsProj C v p) (hv : v ∈ C) : p = v := by
  by_contra hne
  have h2 := hp.2 v hv (Ne.symm hne)
  have h3 : sqDist v v = 0 := by simp [sqDist]
  simp only [h3] at h2
  exact absurd h2 (not_lt.mpr (sqDist_nonneg _ _))

theorem linfBall_convex (a : K) : ∀ x ∈ linfBall (n := n) a, ∀ y ∈ linfBall a, ∀ t : K, 0 ≤ t → t ≤ 1 → (1 - t) • x + t • y ∈ linfBall a := by
  intro x hx y hy t h0 h1 i
  have hx := abs_le.mp (hx i)
  have hy := abs_le.mp (hy i)
  simp only [Pi.add_apply, Pi.smul_apply, smul_eq_mul]
  exact abs_le.mpr ⟨by nlinarith [hx.1, hy.1], by nlinarith [hx.2, hy.2]⟩

theorem norm1_semi : IsSemi (K := K) (norm1 : (Fin n → K) → K) where
  add x y := by
    unfold norm1
    rw [← Finset.sum_add_distrib]
    exact Finset.sum_le_sum fun i _ => abs_add_le _ _
  smul c x := by
    unfold norm1
    rw [Finset.mul_sum]
    exact Finset.sum_congr rfl fun i _ => by rw [Pi.smul_apply, smul_eq_mul, abs_mul]

theorem tv1_semi : IsSemi (K := K) (tv1 : (Fin n → K) → K) where
  add := tv1_add_le
  smul := tv1_smul

theorem semi_scale {g : (Fin n → K) → K} (hg : IsSemi g) {a : K} (ha : 0 ≤ a) : IsSemi fun y => a * g y where
  add x y := by rw [← mul_add]; exact mul_le_mul_of_nonneg_left (hg.add x y) ha
  smul c x := by rw [hg.smul]; ring

theorem l1Ball_convex (a : K) : ∀ x ∈ l1Ball (n := n) a, ∀ y ∈ l1Ball a, ∀ t : K, 0 ≤ t → t ≤ 1 → (1 - t) • x + t • y ∈ l1Ball a := by
  intro x hx y hy t h0 h1
  have hx : norm1 x ≤ a := hx
  have hy : norm1 y ≤ a := hy
  show norm1 _ ≤ a
  have := norm1_semi.convex x y t h0 h1
  nlinarith

theorem simplex_convex (s : K) : ∀ x ∈ simplex (n := n) s, ∀ y ∈ simplex s, ∀ t : K, 0 ≤ t → t ≤ 1 → (1 - t) • x + t • y ∈ simplex s := by
  rintro x ⟨hx0, hxs⟩ y ⟨hy0, hys⟩ t h0 h1
  refine ⟨fun i => ?_, ?_⟩
  · simp only [Pi.add_apply, Pi.smul_apply, smul_eq_mul]
    have := mul_nonneg (sub_nonneg.mpr h1) (hx0 i)
    have := mul_nonneg h0 (hy0 i)
    linarith
  · simp only [Pi.add_apply, Pi.smul_apply, smul_eq_mul]
    rw [Finset.sum_add_distrib, ← Finset.mul_sum, ← Finset.mul_sum, hxs, hys]; ring

theorem l2Ball_convex (a : K) : ∀ x ∈ l2Ball (n := n) a, ∀ y ∈ l2Ball a, ∀ t : K, 0 ≤ t → t ≤ 1 → (1 - t) • x + t • y ∈ l2Ball a := by
  intro x hx y hy t h0 h1
  have hx : dot x x ≤ a ^ 2 := hx
  have hy : dot y y ≤ a ^ 2 := hy
  show dot _ _ ≤ a ^ 2
  have e : dot ((1 - t) • x + t • y) ((1 - t) • x + t • y) = (1 - t) * dot x x + t * dot y y - (1 - t) * t * sqDist x y := by
    unfold dot sqDist
    rw [Finset.mul_sum, Finset.mul_sum, Finset.mul_sum, ← Finset.sum_add_distrib, ← Finset.sum_sub_distrib]
    refine Finset.sum_congr rfl fun i _ => ?_
    simp only [Pi.add_apply, Pi.smul_apply, smul_eq_mul]; ring
  rw [e]
  have := mul_nonneg (mul_nonneg (sub_nonneg.mpr h1) h0) (sqDist_nonneg x y)
  nlinarith

/-! ### C73, projections -/

/-- **C73 (`LinfBall.prox`).** -/
theorem C73_linf (alpha : K) (ha : 0 ≤ alpha) (x y : Fin n → K) : sqDist (LinfBall.prox alpha x) (LinfBall.prox alpha y) ≤ sqDist x y ∧
    LinfBall.prox alpha (LinfBall.prox alpha x) = LinfBall.prox alpha x :=
  ⟨proj_nonexpansive (linfBall_convex alpha) (C01_linf_prox_is_projection alpha ha x) (C01_linf_prox_is_projection alpha ha y),
   proj_of_mem (C01_linf_prox_is_projection alpha ha _) (C01_linf_prox_is_projection alpha ha x).1⟩

/-- **C73 (`L1Ball.prox`).** -/
theorem C73_l1 (s : K) (hs : 0 < s) (x y : Fin n → K) : ∃ p q, L1Ball.prox s x = .ok p ∧ L1Ball.prox s y = .ok q ∧ sqDist p q ≤ sqDist x y ∧
    L1Ball.prox s p = .ok p := by
  obtain ⟨p, h1, h2⟩ := C04_l1_prox_is_projection x s hs
  obtain ⟨q, k1, k2⟩ := C04_l1_prox_is_projection y s hs
  obtain ⟨r, l1, l2⟩ := C04_l1_prox_is_projection p s hs
  refine ⟨p, q, h1, k1, proj_nonexpansive (l1Ball_convex s) h2 k2, ?_⟩
  rw [l1, proj_of_mem l2 h2.1]

/-- **C73 (simplex projection).** -/
theorem C73_simplex (hn : 0 < n) (s : K) (hs : 0 < s) (x y : Fin n → K) : ∃ p q, projSimplex x s = .ok p ∧ projSimplex y s = .ok q ∧
    sqDist p q ≤ sqDist x y ∧ projSimplex p s = .ok p := by
  obtain ⟨p, h1, h2⟩ := C03_proj_simplex_correct hn x s hs
  obtain ⟨q, k1, k2⟩ := C03_proj_simplex_correct hn y s hs
  obtain ⟨r, l1, l2⟩ := C03_proj_simplex_correct hn p s hs
  refine ⟨p, q, h1, k1, proj_nonexpansive (simplex_convex s) h2 k2, ?_⟩
  rw [l1, proj_of_mem l2 h2.1]

/-! ### C73, proximal operators -/

/-- **C73 (`L1Norm.prox`).** -/
theorem C73_l1_norm (alpha step : K) (ha : 0 ≤ alpha) (hs : 0 ≤ step) (x y : Fin n → K) :
    sqDist (L1Norm.prox alpha x step) (L1Norm.prox alpha y step) ≤ sqDist x y :=
  prox_nonexpansive hs (semi_scale norm1_semi ha).convex (C10_l1_prox_exact alpha step ha hs x) (C10_l1_prox_exact alpha step ha hs y)

/-- **C73 (`prox_tv1d`).** Whatever the two calls find in uninitialised memory. -/
theorem C73_tv1d (hn : 0 < n) (junk junk' : TV1D.Junk n K) {step : K} (hs : 0 ≤ step) (x y : Fin n → K) :
    ∃ p q, proxTv1d true junk step x = .ok p ∧ proxTv1d true junk' step y = .ok q ∧ sqDist p q ≤ sqDist x y := by
  obtain ⟨p, h1, h2⟩ := C15_prox_tv1d_exact hn junk hs x
  obtain ⟨q, k1, k2⟩ := C15_prox_tv1d_exact hn junk' hs y
  exact ⟨p, q, h1, k1, prox_nonexpansive hs tv1_semi.convex h2 k2⟩

end General

section Real
variable {n : ℕ}

/-- **C73 (`L2Ball.prox`).** -/
theorem C73_l2 (alpha : ℝ) (ha : 0 ≤ alpha) (x y : Fin n → ℝ) : sqDist (L2Ball.prox alpha x) (L2Ball.prox alpha y) ≤ sqDist x y ∧
    L2Ball.prox alpha (L2Ball.prox alpha x) = L2Ball.prox alpha x :=
  ⟨proj_nonexpansive (l2Ball_convex alpha) (C02_l2_prox_is_projection alpha ha x) (C02_l2_prox_is_projection alpha ha y),
   proj_of_mem (C02_l2_prox_is_projection alpha ha _) (C02_l2_prox_is_projection alpha ha x).1⟩

theorem blockNorm_eq (g : Finset (Fin n)) (y : Fin n → ℝ) : blockNorm g y = ‖(WithLp.toLp 2 fun i : g => y i : EuclideanSpace ℝ g)‖ := by
  rw [EuclideanSpace.norm_eq]
  unfold blockNorm
  congr 1
  rw [← Finset.sum_coe_sort]
  exact Finset.sum_congr rfl fun i _ => by simp

theorem blockNorm_semi (g : Finset (Fin n)) : IsSemi (blockNorm g) where
  add x y := by
    rw [blockNorm_eq, blockNorm_eq, blockNorm_eq]
    exact norm_add_le (WithLp.toLp 2 fun i : g => x i : EuclideanSpace ℝ g) (WithLp.toLp 2 fun i : g => y i)
  smul c x := by
    rw [blockNorm_eq, blockNorm_eq, ← Real.norm_eq_abs, ← norm_smul]
    rfl

theorem groupPen_semi (L : List (ℝ × Finset (Fin n))) (hL : ∀ b ∈ L, 0 ≤ b.1) : IsSemi (groupPen L) where
  add x y := by
    unfold groupPen
    induction L with
    | nil => simp
    | cons b L ih =>
      simp only [List.map_cons, List.sum_cons]
      have h1 := ih fun c hc => hL c (List.mem_cons_of_mem _ hc)
      have h2 := (semi_scale (blockNorm_semi b.2) (hL b List.mem_cons_self)).add x y
      linarith
  smul c x := by
    unfold groupPen
    induction L with
    | nil => simp
    | cons b L ih =>
      simp only [List.map_cons, List.sum_cons]
      rw [ih fun c hc => hL c (List.mem_cons_of_mem _ hc), (blockNorm_semi b.2).smul]; ring

/-- **C73 (`GroupL1.prox`).** -/
theorem C73_group_l1 (alpha step : ℝ) (ha : 0 ≤ alpha) (hs : 0 ≤ step) (groups : List (List ℕ)) (hG : GoodGroups groups)
    (hn : ∀ g ∈ groups, ∀ i ∈ g, i < n) (x y : Fin n → ℝ) :
    ∃ p q, GroupL1.prox alpha groups x step = .ok p ∧ GroupL1.prox alpha groups y step = .ok q ∧ sqDist p q ≤ sqDist x y := by
  obtain ⟨p, h1, h2, -⟩ := C13_group_prox_exact alpha step ha hs groups hG hn x
  obtain ⟨q, k1, k2, -⟩ := C13_group_prox_exact alpha step ha hs groups hG hn y
  refine ⟨p, q, h1, k1, prox_nonexpansive zero_le_one (groupPen_semi _ ?_).convex h2 k2⟩
  intro b hb
  obtain ⟨g, -, rfl⟩ := List.mem_map.mp hb
  exact mul_nonneg hs ha

end Real

/-- C73 on two points: squared distances 32 before and 1 after projecting onto the cube. -/
example : sqDist (LinfBall.prox (1 : ℚ) ![5, 0]) (LinfBall.prox 1 ![1, 4]) = 1 ∧ sqDist (![5, 0] : Fin 2 → ℚ) ![1, 4] = 32 := by
  constructor
  · simp [sqDist, LinfBall.prox, Fin.sum_univ_two]
  · norm_num [sqDist, Fin.sum_univ_two]

/-- Good groups as in `C73_group_l1`. -/
example : GoodGroups [[0, 1], [3]] ∧ ∀ g ∈ ([[0, 1], [3]] : List (List ℕ)), ∀ i ∈ g, i < 4 := by
  refine ⟨⟨?_, ?_⟩, by decide⟩
  · intro g hg
    simp only [List.mem_cons, List.not_mem_nil, or_false] at hg
    rcases hg with rfl | rfl
    · exact ⟨by simp, 0, rfl⟩
    · exact ⟨by simp, 3, rfl⟩
  · simp [StartsAfter]

end Copt
