import Verif.Proof.Saga
import Verif.Proof.Basic
import Verif.Spec.FiniteSum
import Mathlib.Analysis.Calculus.Deriv.Add
import Mathlib.Analysis.Calculus.Deriv.Mul
import Mathlib.Analysis.Calculus.Deriv.Comp
import Mathlib.Analysis.Calculus.Deriv.Pow
import Mathlib.Analysis.Calculus.Deriv.Slope

/-! # Proximal points and optimality conditions of block-separable problems -/

set_option linter.unusedSectionVars false

namespace Copt

open Spec

section Prox
variable {K : Type} [Field K] [LinearOrder K] [IsStrictOrderedRing K] {n p : ℕ} {B : BlockMat}

theorem listedPen_conv (hB : GoodBlocks B p) {pen : Fin B.nb → (Fin p → K) → K} (hpen : IsBlockPenalty B.ptr pen) {w : ℕ → K} {hs : List ℕ}
    (hw : ∀ h ∈ hs, 0 ≤ w h) (x y : Fin p → K) (t : K) (h0 : 0 ≤ t) (h1 : t ≤ 1) :
    listedPen pen w hs ((1 - t) • x + t • y) ≤ (1 - t) * listedPen pen w hs x + t * listedPen pen w hs y := by
  unfold listedPen
  rw [Finset.mul_sum, Finset.mul_sum, ← Finset.sum_add_distrib]
  refine Finset.sum_le_sum fun h _ => ?_
  by_cases hh : h.val ∈ hs
  · simp only [if_pos hh]
    have := mul_le_mul_of_nonneg_left (hpen.conv h x y t h0 h1) (hw h hh)
    nlinarith [this]
  · simp only [if_neg hh]; simp

/-- Replace one block. -/
noncomputable def swapBlock (hB : GoodBlocks B p) (h : Fin B.nb) (x y : Fin p → K) : Fin p → K := fun c => if hB.of c = h then y c else x c

theorem pen_swap (hB : GoodBlocks B p) {pen : Fin B.nb → (Fin p → K) → K} (hpen : IsBlockPenalty B.ptr pen) (h k : Fin B.nb) (x y : Fin p → K) :
    pen k (swapBlock hB h x y) = if k = h then pen h y else pen k x := by
  by_cases hk : k = h
  · subst hk
    rw [if_pos rfl]
    refine hpen.loc k _ _ fun c hc => ?_
    unfold swapBlock
    rw [if_pos (hB.of_eq hc)]
  · rw [if_neg hk]
    refine hpen.loc k _ _ fun c hc => ?_
    unfold swapBlock
    rw [if_neg]
    rw [hB.of_eq hc]; exact hk

theorem listedPen_swap (hB : GoodBlocks B p) {pen : Fin B.nb → (Fin p → K) → K} (hpen : IsBlockPenalty B.ptr pen) (w : ℕ → K) {hs : List ℕ}
    {h : Fin B.nb} (hh : h.val ∈ hs) (x y : Fin p → K) :
    listedPen pen w hs (swapBlock hB h x y) = listedPen pen w hs x + w h.val * (pen h y - pen h x) := by
  rw [← sub_eq_iff_eq_add']
  unfold listedPen
  rw [← Finset.sum_sub_distrib, Finset.sum_eq_single h]
  · rw [if_pos hh, if_pos hh, pen_swap hB hpen, if_pos rfl]; ring
  · intro k _ hk
    rw [pen_swap hB hpen, if_neg hk, sub_self]
  · simp

theorem dot_swap (hB : GoodBlocks B p) (h : Fin B.nb) (u x y : Fin p → K) :
    dot u (swapBlock hB h x y - x) = ∑ c, if hB.of c = h then u c * (y c - x c) else 0 := by
  unfold dot swapBlock
  refine Finset.sum_congr rfl fun c _ => ?_
  simp only [Pi.sub_apply]
  split
  · rfl
  · rw [sub_self, mul_zero]

theorem sum_by_block (hB : GoodBlocks B p) (g : Fin p → K) : ∑ c, g c = ∑ h : Fin B.nb, ∑ c, if hB.of c = h then g c else 0 := by
  rw [Finset.sum_comm]
  refine Finset.sum_congr rfl fun c _ => ?_
  rw [Finset.sum_ite_eq]; simp

/-- A proximal point of listed blocks: unlisted features are kept, and every listed block satisfies its own subgradient condition. -/
theorem isProx_listed_iff (hB : GoodBlocks B p) {pen : Fin B.nb → (Fin p → K) → K} (hpen : IsBlockPenalty B.ptr pen) {w : ℕ → K} {hs : List ℕ}
    (hw : ∀ h ∈ hs, 0 ≤ w h) {step : K} (hstep : 0 ≤ step) (v u : Fin p → K) :
    IsProx (listedPen pen w hs) step v u ↔ (∀ c, (hB.of c).val ∉ hs → u c = v c) ∧
      ∀ h : Fin B.nb, h.val ∈ hs → ∀ y : Fin p → K,
        step * (w h.val * pen h u) + (∑ c, if hB.of c = h then (v c - u c) * (y c - u c) else 0) ≤ step * (w h.val * pen h y) := by
  constructor
  · intro hp
    have hsub := hp.subgrad hstep (fun x y t => listedPen_conv hB hpen hw x y t)
    refine ⟨fun c hc => ?_, fun h hh y => ?_⟩
    · have h1 := hsub (Function.update u c (v c))
      have h2 : listedPen pen w hs (Function.update u c (v c)) = listedPen pen w hs u := by
        unfold listedPen
        refine Finset.sum_congr rfl fun h _ => ?_
        by_cases hh : h.val ∈ hs
        · rw [if_pos hh, if_pos hh]
          congr 1
          refine hpen.loc h _ _ fun c' hc' => ?_
          rw [Function.update_of_ne]
          rintro rfl
          exact hc (by rw [hB.of_eq hc']; exact hh)
        · rw [if_neg hh, if_neg hh]
      rw [h2] at h1
      have h3 : dot (v - u) (Function.update u c (v c) - u) = (v c - u c) ^ 2 := by
        unfold dot
        rw [Finset.sum_eq_single c]
        · simp [sq]
        · intro b _ hb
          simp [Function.update_of_ne hb]
        · simp
      rw [h3] at h1
      have : (v c - u c) ^ 2 = 0 := le_antisymm (by linarith) (sq_nonneg _)
      have := pow_eq_zero_iff (two_ne_zero) |>.mp this
      linarith
    · have h1 := hsub (swapBlock hB h u y)
      rw [listedPen_swap hB hpen w hh, dot_swap] at h1
      simp only [Pi.sub_apply] at h1
      linarith
  · rintro ⟨h1, h2⟩
    refine isProx_of_subgrad fun y => ?_
    have hd : dot (v - u) (y - u) = ∑ h : Fin B.nb, ∑ c, if hB.of c = h then (v c - u c) * (y c - u c) else 0 := by
      unfold dot
      rw [← sum_by_block hB]; rfl
    rw [hd]
    unfold listedPen
    rw [Finset.mul_sum, Finset.mul_sum, ← Finset.sum_add_distrib]
    refine Finset.sum_le_sum fun h _ => ?_
    by_cases hh : h.val ∈ hs
    · simp only [if_pos hh]; exact h2 h hh y
    · simp only [if_neg hh]
      have : (∑ c, if hB.of c = h then (v c - u c) * (y c - u c) else 0) = 0 := by
        refine Finset.sum_eq_zero fun c _ => ?_
        by_cases hc : hB.of c = h
        · rw [if_pos hc, h1 c (by rw [hc]; exact hh), sub_self, zero_mul]
        · rw [if_neg hc]
      rw [this]; simp

/-- The optimality condition of `G + ∑ pen` splits over blocks. -/
theorem opt_blocks (hB : GoodBlocks B p) {pen : Fin B.nb → (Fin p → K) → K} (hpen : IsBlockPenalty B.ptr pen) (G x : Fin p → K) :
    (∀ y, ∑ h, pen h x ≤ (∑ h, pen h y) + dot G (y - x)) ↔
      ∀ h : Fin B.nb, ∀ y : Fin p → K, pen h x ≤ pen h y + ∑ c, if hB.of c = h then G c * (y c - x c) else 0 := by
  constructor
  · intro ho h y
    have h1 := ho (swapBlock hB h x y)
    rw [dot_swap] at h1
    have h2 : ∑ k, pen k (swapBlock hB h x y) = (∑ k, pen k x) + (pen h y - pen h x) := by
      rw [← sub_eq_iff_eq_add', ← Finset.sum_sub_distrib, Finset.sum_eq_single h]
      · rw [pen_swap hB hpen, if_pos rfl]
      · intro k _ hk
        rw [pen_swap hB hpen, if_neg hk, sub_self]
      · simp
    linarith
  · intro hb y
    have hd : dot G (y - x) = ∑ h : Fin B.nb, ∑ c, if hB.of c = h then G c * (y c - x c) else 0 := by
      unfold dot
      rw [← sum_by_block hB]; rfl
    rw [hd, ← Finset.sum_add_distrib]
    exact Finset.sum_le_sum fun h _ => hb h y

end Prox

section Min
variable {n p : ℕ}

theorem finiteSum_line (a : Fin n → Fin p → ℝ) (b : Fin n → ℝ) (f f' : ℝ → ℝ → ℝ) (hf : ∀ t b, HasDerivAt (fun s => f s b) (f' t b) t)
    (alpha : ℝ) (x y : Fin p → ℝ) :
    HasDerivAt (fun t : ℝ => finiteSum a b f alpha (x + t • (y - x))) (dot (finiteSumGrad a b f' alpha x) (y - x)) 0 := by
  have hlin : ∀ i, HasDerivAt (fun t : ℝ => ∑ c, a i c * (x + t • (y - x)) c) (∑ c, a i c * (y c - x c)) 0 := by
    intro i
    refine HasDerivAt.fun_sum fun c _ => ?_
    have h1 : HasDerivAt (fun t : ℝ => x c + t * (y c - x c)) (1 * (y c - x c)) 0 := ((hasDerivAt_id 0).mul_const _).const_add _
    simpa using h1.const_mul (a i c)
  have h1 : ∀ i, HasDerivAt (fun t : ℝ => f (∑ c, a i c * (x + t • (y - x)) c) (b i))
      (f' (∑ c, a i c * x c) (b i) * ∑ c, a i c * (y c - x c)) 0 := by
    intro i
    have := hf (∑ c, a i c * (x + (0 : ℝ) • (y - x)) c) (b i)
    have h2 := HasDerivAt.comp (h₂ := fun s => f s (b i)) (0 : ℝ) this (hlin i)
    simpa [Function.comp_def] using h2
  have h2 : HasDerivAt (fun t : ℝ => ∑ c, (x + t • (y - x)) c ^ 2) (∑ c, 2 * x c * (y c - x c)) 0 := by
    refine HasDerivAt.fun_sum fun c _ => ?_
    have h1 : HasDerivAt (fun t : ℝ => x c + t * (y c - x c)) (1 * (y c - x c)) 0 := ((hasDerivAt_id 0).mul_const _).const_add _
    have := h1.fun_pow 2
    simpa using this
  have h3 := ((HasDerivAt.fun_sum fun i (_ : i ∈ Finset.univ) => h1 i).div_const (n : ℝ)).add (h2.const_mul (alpha / 2))
  unfold finiteSum
  refine h3.congr_deriv ?_
  unfold dot finiteSumGrad
  simp only [Pi.sub_apply, add_mul]
  rw [Finset.sum_add_distrib]
  congr 1
  · rw [Finset.sum_div]
    simp only [Finset.sum_div, Finset.sum_mul, Finset.mul_sum]
    rw [Finset.sum_comm]
    refine Finset.sum_congr rfl fun c _ => Finset.sum_congr rfl fun i _ => ?_
    ring
  · rw [Finset.mul_sum]
    refine Finset.sum_congr rfl fun c _ => ?_
    ring

/-- Minimisers satisfy the optimality condition. -/
theorem opt_of_min (a : Fin n → Fin p → ℝ) (b : Fin n → ℝ) (f f' : ℝ → ℝ → ℝ) (hf : ∀ t b, HasDerivAt (fun s => f s b) (f' t b) t)
    (alpha : ℝ) (pen : (Fin p → ℝ) → ℝ)
    (hconv : ∀ x y, ∀ t : ℝ, 0 ≤ t → t ≤ 1 → pen ((1 - t) • x + t • y) ≤ (1 - t) * pen x + t * pen y) (x : Fin p → ℝ)
    (hmin : ∀ y, finiteSum a b f alpha x + pen x ≤ finiteSum a b f alpha y + pen y) (y : Fin p → ℝ) :
    pen x ≤ pen y + dot (finiteSumGrad a b f' alpha x) (y - x) := by
  have hd := (finiteSum_line a b f f' hf alpha x y).add ((hasDerivAt_id (0 : ℝ)).mul_const (pen y - pen x))
  set D := dot (finiteSumGrad a b f' alpha x) (y - x) with hD
  have hslope := hasDerivWithinAt_iff_tendsto_slope.mp (hd.hasDerivWithinAt (s := Set.Ioi 0))
  have hge : ∀ᶠ t in nhdsWithin (0 : ℝ) (Set.Ioi 0 \ {0}), 0 ≤ slope ((fun t : ℝ => finiteSum a b f alpha (x + t • (y - x))) +
      fun t => id t * (pen y - pen x)) 0 t := by
    have hsub : (Set.Ioi (0 : ℝ) \ {0}) = Set.Ioi 0 := by ext t; simp
    rw [hsub]
    filter_upwards [Ioo_mem_nhdsGT (show (0 : ℝ) < 1 by norm_num)] with t ht
    rw [slope_def_field]
    refine div_nonneg ?_ (by linarith [ht.1])
    have h1 := hmin (x + t • (y - x))
    have h2 := hconv x y t ht.1.le ht.2.le
    have e : (1 - t) • x + t • y = x + t • (y - x) := by
      rw [sub_smul, smul_sub, one_smul]; abel
    rw [e] at h2
    simp only [Pi.add_apply, id, zero_smul, add_zero, zero_mul]
    nlinarith
  have hne : (nhdsWithin (0 : ℝ) (Set.Ioi 0 \ {0})).NeBot := by
    have hsub : (Set.Ioi (0 : ℝ) \ {0}) = Set.Ioi 0 := by ext t; simp
    rw [hsub]; infer_instance
  have := ge_of_tendsto hslope hge
  linarith

/-- The optimality condition is sufficient for convex losses. -/
theorem min_of_opt {K : Type} [Field K] [LinearOrder K] [IsStrictOrderedRing K] (a : Fin n → Fin p → K) (b : Fin n → K) (f f' : K → K → K) (hf : ∀ s t b, f t b + f' t b * (s - t) ≤ f s b)
    (alpha : K) (ha : 0 ≤ alpha) (pen : (Fin p → K) → K) (x : Fin p → K)
    (hopt : ∀ y, pen x ≤ pen y + dot (finiteSumGrad a b f' alpha x) (y - x)) (y : Fin p → K) :
    finiteSum a b f alpha x + pen x ≤ finiteSum a b f alpha y + pen y := by
  have h1 := hopt y
  suffices h : finiteSum a b f alpha x + dot (finiteSumGrad a b f' alpha x) (y - x) ≤ finiteSum a b f alpha y by linarith
  have h2 : dot (finiteSumGrad a b f' alpha x) (y - x) =
      (∑ i, f' (∑ c, a i c * x c) (b i) * ((∑ c, a i c * y c) - ∑ c, a i c * x c)) / (n : K) + alpha * ∑ c, x c * (y c - x c) := by
    unfold dot finiteSumGrad
    simp only [Pi.sub_apply, add_mul]
    rw [Finset.sum_add_distrib]
    congr 1
    · simp only [← Finset.sum_sub_distrib, Finset.sum_div, Finset.sum_mul, Finset.mul_sum]
      rw [Finset.sum_comm]
      refine Finset.sum_congr rfl fun c _ => Finset.sum_congr rfl fun i _ => ?_
      ring
    · rw [Finset.mul_sum]
      refine Finset.sum_congr rfl fun c _ => ?_
      ring
  rw [h2]
  unfold finiteSum
  have h3 : (∑ i, f (∑ c, a i c * x c) (b i)) / (n : K) + (∑ i, f' (∑ c, a i c * x c) (b i) *
      ((∑ c, a i c * y c) - ∑ c, a i c * x c)) / (n : K) ≤ (∑ i, f (∑ c, a i c * y c) (b i)) / (n : K) := by
    rw [← add_div, ← Finset.sum_add_distrib]
    exact div_le_div_of_nonneg_right (Finset.sum_le_sum fun i _ => hf _ _ _) (Nat.cast_nonneg n)
  have h4 : alpha / 2 * ∑ c, x c ^ 2 + alpha * ∑ c, x c * (y c - x c) ≤ alpha / 2 * ∑ c, y c ^ 2 := by
    rw [Finset.mul_sum, Finset.mul_sum, Finset.mul_sum, ← Finset.sum_add_distrib]
    refine Finset.sum_le_sum fun c _ => ?_
    nlinarith [mul_nonneg ha (sq_nonneg (x c - y c))]
  linarith

end Min

end Copt
