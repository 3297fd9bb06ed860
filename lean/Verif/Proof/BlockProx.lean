import Verif.Proof.Groups
import Verif.Spec.Penalty

/-! # Proximal point of a sum of functions of disjoint blocks -/

set_option linter.unusedSectionVars false

namespace Copt

open Spec

/-- A sum that vanishes outside pairwise disjoint blocks is the sum of the block sums. -/
theorem sum_blocks {M ι W : Type} [AddCommMonoid M] [Fintype ι] [DecidableEq ι] :
    ∀ (L : List (W × Finset ι)) (f : ι → M), L.Pairwise (fun a b => Disjoint a.2 b.2) →
      (∀ i, (∀ b ∈ L, i ∉ b.2) → f i = 0) →
      ∑ i, f i = (L.map (fun b => ∑ i ∈ b.2, f i)).sum
  | [], f, _, h0 => by simp; exact Finset.sum_eq_zero fun i _ => h0 i (by simp)
  | (w, g) :: L, f, hd, h0 => by
    have hd' := List.pairwise_cons.mp hd
    have ih := sum_blocks L (fun i => if i ∈ g then 0 else f i) hd'.2 (by
      intro i hi
      by_cases hg : i ∈ g
      · simp [hg]
      · simp only [hg, if_false]
        exact h0 i (by
          intro b hb
          rcases List.mem_cons.mp hb with rfl | hb
          · exact hg
          · exact hi b hb))
    simp only [List.map_cons, List.sum_cons]
    have e1 : ∑ i, f i = ∑ i ∈ g, f i + ∑ i, (if i ∈ g then 0 else f i) := by
      rw [← Finset.sum_filter_add_sum_filter_not Finset.univ (fun i => i ∈ g) f]
      congr 1
      · congr 1; ext i; simp
      · rw [Finset.sum_filter]; refine Finset.sum_congr rfl fun i _ => ?_
        by_cases h : i ∈ g <;> simp [h]
    rw [e1, ih]
    congr 2
    refine List.map_congr_left fun b hb => ?_
    refine Finset.sum_congr rfl fun i hi => ?_
    have : i ∉ g := fun hg => (Finset.disjoint_left.mp (hd'.1 b hb)) hg hi
    simp [this]

variable {n : ℕ}

theorem blockNorm_nonneg (g : Finset (Fin n)) (y : Fin n → ℝ) : 0 ≤ blockNorm g y := Real.sqrt_nonneg _

theorem blockNorm_sq (g : Finset (Fin n)) (y : Fin n → ℝ) : blockNorm g y ^ 2 = ∑ i ∈ g, y i ^ 2 :=
  Real.sq_sqrt (Finset.sum_nonneg fun _ _ => sq_nonneg _)

theorem block_cs (g : Finset (Fin n)) (x y : Fin n → ℝ) :
    ∑ i ∈ g, x i * y i ≤ blockNorm g x * blockNorm g y := by
  refine le_of_sq_le_sq ?_ (mul_nonneg (blockNorm_nonneg _ _) (blockNorm_nonneg _ _))
  rw [mul_pow, blockNorm_sq, blockNorm_sq]
  exact Finset.sum_mul_sq_le_sq_mul_sq g x y

/-- Block soft-thresholding satisfies the subgradient inequality of `w * blockNorm g`. -/
theorem blockSoft_subgrad {w : ℝ} (hw : 0 ≤ w) (g : Finset (Fin n)) (x p y : Fin n → ℝ)
    (hp : ∀ i ∈ g, p i = if blockNorm g x > w then x i * (1 - w / blockNorm g x) else 0) :
    w * blockNorm g p + ∑ i ∈ g, (x i - p i) * (y i - p i) ≤ w * blockNorm g y := by
  set N := blockNorm g x with hN
  have hNsq : N ^ 2 = ∑ i ∈ g, x i * x i := by rw [hN, blockNorm_sq]; simp [pow_two]
  have hcs := block_cs g x y
  rw [← hN] at hcs
  have hy0 := blockNorm_nonneg g y
  by_cases h : N > w
  · have hNpos : 0 < N := lt_of_le_of_lt hw h
    have hp' : ∀ i ∈ g, p i = x i * (1 - w / N) := fun i hi => by rw [hp i hi, if_pos h]
    have h1 : 0 ≤ 1 - w / N := by
      have : w / N ≤ 1 := (div_le_one hNpos).mpr h.le
      linarith
    have hpn : blockNorm g p = N * (1 - w / N) := by
      have hsq : ∑ i ∈ g, p i ^ 2 = (N * (1 - w / N)) ^ 2 := by
        rw [mul_pow, hNsq, Finset.sum_mul]
        exact Finset.sum_congr rfl fun i hi => by rw [hp' i hi]; ring
      unfold blockNorm
      rw [hsq]
      exact Real.sqrt_sq (mul_nonneg hNpos.le h1)
    have hdot : ∑ i ∈ g, (x i - p i) * (y i - p i)
        = w / N * ∑ i ∈ g, x i * y i - w / N * (1 - w / N) * N ^ 2 := by
      rw [hNsq, Finset.mul_sum, Finset.mul_sum, ← Finset.sum_sub_distrib]
      exact Finset.sum_congr rfl fun i hi => by rw [hp' i hi]; ring
    rw [hpn, hdot]
    have e : w / N * (1 - w / N) * N ^ 2 = w * (N * (1 - w / N)) := by field_simp
    rw [e]
    have : w / N * ∑ i ∈ g, x i * y i ≤ w / N * (N * blockNorm g y) :=
      mul_le_mul_of_nonneg_left hcs (div_nonneg hw hNpos.le)
    have e2 : w / N * (N * blockNorm g y) = w * blockNorm g y := by field_simp
    linarith
  · have hp' : ∀ i ∈ g, p i = 0 := fun i hi => by rw [hp i hi, if_neg h]
    have hpn : blockNorm g p = 0 := by
      unfold blockNorm
      rw [Finset.sum_eq_zero (fun i hi => by rw [hp' i hi]; ring)]; simp
    have hdot : ∑ i ∈ g, (x i - p i) * (y i - p i) = ∑ i ∈ g, x i * y i :=
      Finset.sum_congr rfl fun i hi => by rw [hp' i hi]; ring
    rw [hpn, hdot]
    push Not at h
    nlinarith

theorem list_sum_le_sum {α : Type} (L : List α) (f g : α → ℝ) (h : ∀ a ∈ L, f a ≤ g a) :
    (L.map f).sum ≤ (L.map g).sum := List.sum_le_sum h

/-- Proximal point of a weighted group-lasso penalty with disjoint groups. -/
theorem blockProx {L : List (ℝ × Finset (Fin n))} (hd : L.Pairwise (fun a b => Disjoint a.2 b.2))
    (hw : ∀ b ∈ L, 0 ≤ b.1) (x p : Fin n → ℝ)
    (hp : ∀ b ∈ L, ∀ i ∈ b.2, p i =
      if blockNorm b.2 x > b.1 then x i * (1 - b.1 / blockNorm b.2 x) else 0)
    (hout : ∀ i, (∀ b ∈ L, i ∉ b.2) → p i = x i) :
    IsProx (groupPen L) 1 x p := by
  refine isProx_of_subgrad fun y => ?_
  have e : dot (x - p) (y - p) = (L.map (fun b => ∑ i ∈ b.2, (x i - p i) * (y i - p i))).sum :=
    sum_blocks L (fun i => (x i - p i) * (y i - p i)) hd (fun i hi => by rw [hout i hi]; ring)
  rw [e, one_mul, one_mul]
  unfold groupPen
  rw [← List.sum_map_add]
  exact List.sum_le_sum fun b hb => blockSoft_subgrad (hw b hb) b.2 x p y (hp b hb)

end Copt
