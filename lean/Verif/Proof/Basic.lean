import Mathlib.Tactic.Ring
import Mathlib.Tactic.Linarith
import Mathlib.Tactic.LinearCombination
import Mathlib.Tactic.NormNum
import Mathlib.Tactic.Positivity
import Mathlib.Tactic.FieldSimp
import Mathlib.Algebra.Order.BigOperators.Ring.Finset
import Mathlib.Algebra.Module.Pi
import Verif.Spec.Basic

/-! # Variational characterisations of projections and proximal points -/

set_option linter.unusedSectionVars false

namespace Copt.Spec

variable {K : Type} [Field K] [LinearOrder K] [IsStrictOrderedRing K] {n : ℕ}

theorem sqDist_nonneg (x y : Fin n → K) : 0 ≤ sqDist x y :=
  Finset.sum_nonneg fun _ _ => sq_nonneg _

theorem sqDist_pos {x y : Fin n → K} (h : x ≠ y) : 0 < sqDist x y := by
  obtain ⟨i, hi⟩ := Function.ne_iff.mp h
  refine Finset.sum_pos' (fun _ _ => sq_nonneg _) ⟨i, Finset.mem_univ _, ?_⟩
  have : x i - y i ≠ 0 := sub_ne_zero.mpr hi
  positivity

theorem sqDist_comm (x y : Fin n → K) : sqDist x y = sqDist y x := by
  unfold sqDist; exact Finset.sum_congr rfl fun i _ => by ring

/-- Expansion of the squared distance around a third point. -/
theorem sqDist_expand (y v p : Fin n → K) :
    sqDist y v = sqDist p v + sqDist y p - 2 * dot (v - p) (y - p) := by
  unfold sqDist dot
  rw [Finset.mul_sum, ← Finset.sum_add_distrib, ← Finset.sum_sub_distrib]
  refine Finset.sum_congr rfl fun i _ => ?_
  simp only [Pi.sub_apply]; ring

theorem isProj_of_vi {C : Set (Fin n → K)} {v p : Fin n → K} (hp : p ∈ C)
    (h : ∀ y ∈ C, dot (v - p) (y - p) ≤ 0) : IsProj C v p := by
  refine ⟨hp, fun y hy hne => ?_⟩
  have h1 := h y hy
  have h2 := sqDist_pos hne
  show sqDist p v < sqDist y v
  rw [sqDist_expand y v p]; linarith

theorem isProx_of_subgrad {pen : (Fin n → K) → K} {s : K} {v p : Fin n → K}
    (h : ∀ y, s * pen p + dot (v - p) (y - p) ≤ s * pen y) : IsProx pen s v p := by
  refine ⟨trivial, fun y _ hne => ?_⟩
  have h1 := h y
  have h2 := sqDist_pos hne
  show s * pen p + sqDist p v / 2 < s * pen y + sqDist y v / 2
  rw [sqDist_expand y v p]; linarith

theorem isUniqueMin_unique {α : Type} {C : Set α} {F : α → K} {p q : α}
    (hp : IsUniqueMin C F p) (hq : IsUniqueMin C F q) : p = q := by
  by_contra hne
  exact lt_asymm (hp.2 q hq.1 (Ne.symm hne)) (hq.2 p hp.1 hne)

theorem dot_comm (x y : Fin n → K) : dot x y = dot y x := by
  unfold dot; exact Finset.sum_congr rfl fun i _ => mul_comm _ _

theorem dot_self_nonneg (x : Fin n → K) : 0 ≤ dot x x :=
  Finset.sum_nonneg fun _ _ => mul_self_nonneg _

theorem sqDist_eq_dot (x y : Fin n → K) : sqDist x y = dot (x - y) (x - y) := by
  unfold sqDist dot; exact Finset.sum_congr rfl fun i _ => by simp only [Pi.sub_apply]; ring

theorem dot_self_eq_zero {x : Fin n → K} : dot x x = 0 ↔ x = 0 := by
  unfold dot
  rw [Finset.sum_eq_zero_iff_of_nonneg (fun _ _ => mul_self_nonneg _)]
  constructor
  · intro h; funext i; simpa using h i (Finset.mem_univ _)
  · rintro rfl; simp

theorem dot_add_left (x y z : Fin n → K) : dot (x + y) z = dot x z + dot y z := by
  unfold dot; rw [← Finset.sum_add_distrib]
  exact Finset.sum_congr rfl fun i _ => by simp only [Pi.add_apply]; ring

theorem dot_sub_left (x y z : Fin n → K) : dot (x - y) z = dot x z - dot y z := by
  unfold dot; rw [← Finset.sum_sub_distrib]
  exact Finset.sum_congr rfl fun i _ => by simp only [Pi.sub_apply]; ring

theorem dot_smul_left (c : K) (x z : Fin n → K) : dot (c • x) z = c * dot x z := by
  unfold dot; rw [Finset.mul_sum]
  exact Finset.sum_congr rfl fun i _ => by simp only [Pi.smul_apply, smul_eq_mul]; ring

theorem dot_add_right (x y z : Fin n → K) : dot x (y + z) = dot x y + dot x z := by
  rw [dot_comm, dot_add_left, dot_comm y, dot_comm z]

theorem dot_sub_right (x y z : Fin n → K) : dot x (y - z) = dot x y - dot x z := by
  rw [dot_comm, dot_sub_left, dot_comm y, dot_comm z]

theorem dot_smul_right (c : K) (x z : Fin n → K) : dot x (c • z) = c * dot x z := by
  rw [dot_comm, dot_smul_left, dot_comm]

/-- Cauchy-Schwarz, squared form. -/
theorem dot_sq_le (x y : Fin n → K) : dot x y ^ 2 ≤ dot x x * dot y y := by
  have := Finset.sum_mul_sq_le_sq_mul_sq Finset.univ x y
  simpa [dot, pow_two] using this

/-! ### Converse: a projection / proximal point satisfies the variational inequality -/

/-- If adding `t * a + t^2 * b` to 0 keeps it nonnegative for all `t ∈ (0,1]`, then `a ≥ 0`. -/
theorem nonneg_of_quadratic {a b : K} (h : ∀ t : K, 0 < t → t ≤ 1 → 0 ≤ t * a + t ^ 2 * b) : 0 ≤ a := by
  by_contra ha
  push Not at ha
  have hb : 0 < b := by
    have := h 1 one_pos le_rfl
    nlinarith
  -- choose t = min 1 (-a / (2 b))
  set t := min 1 (-a / (2 * b)) with ht
  have htpos : 0 < t := lt_min one_pos (div_pos (by linarith) (by linarith))
  have ht1 : t ≤ 1 := min_le_left _ _
  have ht2 : t ≤ -a / (2 * b) := min_le_right _ _
  have h3 := h t htpos ht1
  have h4 : t * (2 * b) ≤ -a := by rwa [le_div_iff₀ (by linarith)] at ht2
  nlinarith

/-- Variational inequality of a projection onto a convex set. -/
theorem IsProj.vi {C : Set (Fin n → K)} {v p : Fin n → K} (hp : IsProj C v p)
    (hC : ∀ x ∈ C, ∀ y ∈ C, ∀ t : K, 0 ≤ t → t ≤ 1 → (1 - t) • x + t • y ∈ C) :
    ∀ y ∈ C, dot (v - p) (y - p) ≤ 0 := by
  intro y hy
  suffices 0 ≤ -(2 * dot (v - p) (y - p)) by linarith
  refine nonneg_of_quadratic (b := sqDist y p) fun t ht ht1 => ?_
  have hz := hC p hp.1 y hy t ht.le ht1
  set z := (1 - t) • p + t • y with hzdef
  have hzp : z - p = t • (y - p) := by
    rw [hzdef]; funext i; simp only [Pi.sub_apply, Pi.add_apply, Pi.smul_apply, smul_eq_mul]; ring
  have hle : sqDist p v ≤ sqDist z v := by
    by_cases h : z = p
    · rw [h]
    · exact (hp.2 z hz h).le
  rw [sqDist_expand z v p, sqDist_eq_dot z p, hzp, dot_smul_right, dot_smul_left, dot_smul_right,
    ← sqDist_eq_dot] at hle
  nlinarith

/-- Subgradient inequality at a proximal point of a convex penalty. -/
theorem IsProx.subgrad {pen : (Fin n → K) → K} {s : K} {v p : Fin n → K} (hp : IsProx pen s v p)
    (hs : 0 ≤ s)
    (hpen : ∀ x y : Fin n → K, ∀ t : K, 0 ≤ t → t ≤ 1 →
      pen ((1 - t) • x + t • y) ≤ (1 - t) * pen x + t * pen y) :
    ∀ y, s * pen p + dot (v - p) (y - p) ≤ s * pen y := by
  intro y
  suffices 0 ≤ s * pen y - s * pen p - dot (v - p) (y - p) by linarith
  refine nonneg_of_quadratic (b := sqDist y p / 2) fun t ht ht1 => ?_
  set z := (1 - t) • p + t • y with hzdef
  have hzp : z - p = t • (y - p) := by
    rw [hzdef]; funext i; simp only [Pi.sub_apply, Pi.add_apply, Pi.smul_apply, smul_eq_mul]; ring
  have hle : s * pen p + sqDist p v / 2 ≤ s * pen z + sqDist z v / 2 := by
    by_cases h : z = p
    · rw [h]
    · exact (hp.2 z trivial h).le
  rw [sqDist_expand z v p, sqDist_eq_dot z p, hzp, dot_smul_right, dot_smul_left, dot_smul_right,
    ← sqDist_eq_dot] at hle
  have h5 := mul_le_mul_of_nonneg_left (hpen p y t ht.le ht1) hs
  nlinarith

end Copt.Spec
