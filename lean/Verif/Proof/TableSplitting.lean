import Verif.Spec.Basic
import Verif.Proof.BlockPass
import Mathlib.Analysis.Convex.Continuous
import Mathlib.Topology.MetricSpace.Sequences

/-! # Three-operator splitting with a table of derivatives, samples visited in any recurrent order -/

set_option linter.unusedSectionVars false

namespace Copt

open Copt.Spec Filter

variable {n p : ℕ}

/-! ### Descent with delays -/

/-- A nonnegative sequence that decreases by `r t + g t` up to multiples of the last `N` squared moves. -/
theorem delayed_descent {Φ r g a : ℕ → ℝ} {N : ℕ} {k1 k2 : ℝ} (hΦ : ∀ t, 0 ≤ Φ t) (hg : ∀ t, 0 ≤ g t) (ha : ∀ t, 0 ≤ a t) (hr : ∀ t, 2 * a t ≤ r t)
    (hk2 : 0 ≤ k2) (hk : k1 + N * k2 ≤ 1)
    (hstep : ∀ t, N ≤ t → Φ (t + 1) + r t + g t ≤ Φ t + k1 * a t + k2 * ∑ s ∈ Finset.range N, a (t - N + s)) :
    Tendsto r atTop (nhds 0) ∧ Tendsto g atTop (nhds 0) ∧ ∃ l, Tendsto Φ atTop (nhds l) := by
  set W : ℕ → ℝ := fun t => k2 * ∑ s ∈ Finset.range N, ((s : ℝ) + 1) * a (t + s) with hW
  have hW0 : ∀ t, 0 ≤ W t := fun t => mul_nonneg hk2 (Finset.sum_nonneg fun s _ => mul_nonneg (by positivity) (ha _))
  have hr0 : ∀ t, 0 ≤ r t := fun t => by linarith [hr t, ha t]
  set Ψ : ℕ → ℝ := fun t => Φ (t + N) + W t with hΨ
  have hΨ0 : ∀ t, 0 ≤ Ψ t := fun t => add_nonneg (hΦ _) (hW0 _)
  have hdec : ∀ t, Ψ (t + 1) + (r (t + N) / 2 + g (t + N)) ≤ Ψ t := by
    intro t
    have h1 := hstep (t + N) (by omega)
    have e0 : t + N - N = t := by omega
    rw [e0] at h1
    have e1 : (∑ s ∈ Finset.range N, ((s : ℝ) + 1) * a (t + 1 + s)) =
        (∑ s ∈ Finset.range N, ((s : ℝ) + 1) * a (t + s)) - (∑ s ∈ Finset.range N, a (t + s)) + N * a (t + N) := by
      have h2 : (∑ s ∈ Finset.range (N + 1), (s : ℝ) * a (t + s)) = ∑ s ∈ Finset.range N, ((s : ℝ) + 1) * a (t + 1 + s) := by
        rw [Finset.sum_range_succ']
        simp only [Nat.cast_add, Nat.cast_one, Nat.cast_zero, zero_mul, add_zero]
        exact Finset.sum_congr rfl fun s _ => by rw [show t + (s + 1) = t + 1 + s by omega]
      rw [← h2, Finset.sum_range_succ, ← Finset.sum_sub_distrib]
      congr 1
      exact Finset.sum_congr rfl fun s _ => by ring
    have e2 : W (t + 1) = W t - k2 * (∑ s ∈ Finset.range N, a (t + s)) + N * k2 * a (t + N) := by
      simp only [hW]
      rw [e1]; ring
    have h3 := mul_le_mul_of_nonneg_right hk (ha (t + N))
    have h4 := hr (t + N)
    have e3 : Ψ (t + 1) = Φ (t + N + 1) + W (t + 1) := by simp only [hΨ]; rw [show t + 1 + N = t + N + 1 by omega]
    rw [e3, e2]
    simp only [hΨ]
    linarith
  have hanti : Antitone Ψ := antitone_nat_of_succ_le fun t => by linarith [hdec t, hr0 (t + N), hg (t + N)]
  have hlim : Tendsto Ψ atTop (nhds (⨅ t, Ψ t)) := tendsto_atTop_ciInf hanti ⟨0, by rintro _ ⟨t, rfl⟩; exact hΨ0 t⟩
  have hdiff : Tendsto (fun t => Ψ t - Ψ (t + 1)) atTop (nhds 0) := by
    have := hlim.sub (hlim.comp (tendsto_add_atTop_nat 1))
    simpa using this
  have hrN : Tendsto (fun t => r (t + N)) atTop (nhds 0) := by
    refine squeeze_zero (fun t => hr0 _) (fun t => ?_) (by simpa using hdiff.const_mul 2)
    linarith [hdec t, hg (t + N)]
  have hgN : Tendsto (fun t => g (t + N)) atTop (nhds 0) := by
    refine squeeze_zero (fun t => hg _) (fun t => ?_) hdiff
    linarith [hdec t, hr0 (t + N)]
  have hr' := (tendsto_add_atTop_iff_nat N).mp hrN
  have ha' : Tendsto a atTop (nhds 0) := squeeze_zero ha (fun t => by linarith [hr t, ha t]) hr'
  have hWl : Tendsto W atTop (nhds 0) := by
    have : Tendsto W atTop (nhds (k2 * ∑ s ∈ Finset.range N, ((s : ℝ) + 1) * 0)) := by
      refine Tendsto.const_mul _ (tendsto_finsetSum _ fun s _ => Tendsto.const_mul _ ?_)
      exact ha'.comp (tendsto_add_atTop_nat s)
    simpa using this
  refine ⟨hr', (tendsto_add_atTop_iff_nat N).mp hgN, ⨅ t, Ψ t, (tendsto_add_atTop_iff_nat N).mp ?_⟩
  have := hlim.sub hWl
  simpa [hΨ] using this

/-- Delayed points: the squared distance is at most the delay times the squared moves. -/
theorem sqDist_delay (z : ℕ → Fin p → ℝ) {N t τ : ℕ} (h1 : τ ≤ t) (h2 : t ≤ τ + N) (h3 : N ≤ t) :
    sqDist (z t) (z τ) ≤ N * ∑ s ∈ Finset.range N, sqDist (z (t - N + s + 1)) (z (t - N + s)) := by
  have e : ∀ x y : Fin p → ℝ, sqDist x y = ‖euc x - euc y‖ ^ 2 := fun x y => (norm_euc_sq fun c => x c - y c).symm
  simp only [e]
  have k1 := dist_le_moves z h1
  have k2 : ∑ i ∈ Finset.Ico τ t, move z i ≤ ∑ s ∈ Finset.range N, move z (t - N + s) := by
    have e1 : ∑ s ∈ Finset.range N, move z (t - N + s) = ∑ i ∈ Finset.Ico (t - N) t, move z i := by
      rw [Finset.sum_Ico_eq_sum_range, show t - (t - N) = N by omega]
    rw [e1]
    refine Finset.sum_le_sum_of_subset_of_nonneg (Finset.Ico_subset_Ico (by omega) le_rfl) (fun _ _ _ => norm_nonneg _)
  have k3 := pow_le_pow_left₀ (norm_nonneg _) (k1.trans k2) 2
  refine k3.trans ?_
  have := sq_sum_le_card_mul_sum_sq (s := Finset.range N) (f := fun s => move z (t - N + s))
  rw [Finset.card_range] at this
  exact this


/-! ### Three-operator splitting with a gradient table, every sample touching every block -/

/-- Losses of the samples: convex, with `M`-Lipschitz derivatives `g`; rows of squared norm at most `R`. -/
structure TableLoss (a : Fin n → Fin p → ℝ) (f g : Fin n → ℝ → ℝ) (M R : ℝ) : Prop where
  samples : 0 < n
  below : ∀ j s t, f j s + g j s * (t - s) ≤ f j t
  lip : ∀ j s t, |g j s - g j t| ≤ M * |s - t|
  rows : ∀ j, ∑ c, a j c ^ 2 ≤ R

/-- The product of row `j` with `x`. -/
def rowProd (a : Fin n → Fin p → ℝ) (j : Fin n) (x : Fin p → ℝ) : ℝ := ∑ c, a j c * x c

/-- The iterates. The direction is the one of SAGA: correction for the sample, average of the table, quadratic term. -/
structure TableRun (a : Fin n → Fin p → ℝ) (g : Fin n → ℝ → ℝ) (alpha step : ℝ) (φ1 φ2 : (Fin p → ℝ) → ℝ) (seq : ℕ → Fin n)
    (y1 y2 x1 x2 z : ℕ → Fin p → ℝ) (mem : ℕ → Fin n → ℝ) (V : ℕ → Fin p → ℝ) : Prop where
  dir : ∀ t c, V t c = (g (seq t) (rowProd a (seq t) (z t)) - mem t (seq t)) * a (seq t) c + (∑ j, mem t j * a j c) / n + alpha * z t c
  prox1 : ∀ t w, step * φ1 (x1 (t + 1)) + ∑ c, (2 * z t c - y1 t c - step * (1 / 2) * V t c - x1 (t + 1) c) * (w c - x1 (t + 1) c) ≤ step * φ1 w
  prox2 : ∀ t w, step * φ2 (x2 (t + 1)) + ∑ c, (2 * z t c - y2 t c - step * (1 / 2) * V t c - x2 (t + 1) c) * (w c - x2 (t + 1) c) ≤ step * φ2 w
  move1 : ∀ t c, y1 (t + 1) c = y1 t c + (x1 (t + 1) c - z t c)
  move2 : ∀ t c, y2 (t + 1) c = y2 t c + (x2 (t + 1) c - z t c)
  mean : ∀ t c, z t c = (y1 t c + y2 t c) / 2
  table : ∀ t, mem (t + 1) = Function.update (mem t) (seq t) (g (seq t) (rowProd a (seq t) (z t)))

/-- The gradient of the data term. -/
noncomputable def tableGrad (a : Fin n → Fin p → ℝ) (g : Fin n → ℝ → ℝ) (alpha : ℝ) (x : Fin p → ℝ) : Fin p → ℝ := fun c =>
  (∑ j, g j (rowProd a j x) * a j c) / n + alpha * x c

/-- A solution with the subgradients of the two penalties. -/
structure TableDual (a : Fin n → Fin p → ℝ) (g : Fin n → ℝ → ℝ) (alpha : ℝ) (φ1 φ2 : (Fin p → ℝ) → ℝ) (xs s1 s2 : Fin p → ℝ) : Prop where
  sub1 : ∀ w, φ1 xs + ∑ c, s1 c * (w c - xs c) ≤ φ1 w
  sub2 : ∀ w, φ2 xs + ∑ c, s2 c * (w c - xs c) ≤ φ2 w
  sum : ∀ c, s1 c + s2 c = -tableGrad a g alpha xs c

section Step
variable {a : Fin n → Fin p → ℝ} {f g : Fin n → ℝ → ℝ} {M R alpha step : ℝ}

theorem rowProd_sub (j : Fin n) (x y : Fin p → ℝ) : rowProd a j (fun c => x c - y c) = rowProd a j x - rowProd a j y := by
  unfold rowProd; rw [← Finset.sum_sub_distrib]; exact Finset.sum_congr rfl fun c _ => by ring

theorem TableLoss.row_sq (h : TableLoss a f g M R) (j : Fin n) (x y : Fin p → ℝ) : (rowProd a j x - rowProd a j y) ^ 2 ≤ R * sqDist x y := by
  rw [← rowProd_sub]
  refine (Finset.sum_mul_sq_le_sq_mul_sq _ _ _).trans ?_
  exact mul_le_mul_of_nonneg_right (h.rows j) (Finset.sum_nonneg fun c _ => sq_nonneg _)

theorem TableLoss.R_nonneg (h : TableLoss a f g M R) : 0 ≤ R := (Finset.sum_nonneg fun _ _ => sq_nonneg _).trans (h.rows ⟨0, h.samples⟩)

theorem TableLoss.M_nonneg (h : TableLoss a f g M R) : 0 ≤ M := by
  have := (abs_nonneg _).trans (h.lip ⟨0, h.samples⟩ 1 0)
  simpa using this

theorem TableLoss.mono (h : TableLoss a f g M R) (j : Fin n) (s t : ℝ) : 0 ≤ (g j s - g j t) * (s - t) := by
  linarith [h.below j s t, h.below j t s, mul_comm (g j s) (t - s), sub_mul (g j s) (g j t) (s - t), mul_sub (g j s) s t, mul_sub (g j s) t s,
    mul_sub (g j t) s t]

theorem TableLoss.coco (h : TableLoss a f g M R) (j : Fin n) (s t : ℝ) : (g j s - g j t) ^ 2 ≤ M * ((g j s - g j t) * (s - t)) := by
  have h1 := mul_le_mul_of_nonneg_left (h.lip j s t) (abs_nonneg (g j s - g j t))
  rw [← sq_abs]
  calc |g j s - g j t| ^ 2 = |g j s - g j t| * |g j s - g j t| := sq _
    _ ≤ |g j s - g j t| * (M * |s - t|) := h1
    _ = M * |(g j s - g j t) * (s - t)| := by rw [abs_mul]; ring
    _ = _ := by rw [abs_of_nonneg (h.mono j s t)]

theorem half_young {B y c M : ℝ} (hc : 0 ≤ c) (hM : 0 ≤ M) (h : B ^ 2 ≤ M * c) : |B * y| ≤ c / 2 + M / 2 * y ^ 2 := by
  refine abs_le_of_sq_le_sq ?_ (by positivity)
  have := mul_le_mul_of_nonneg_right h (sq_nonneg y)
  nlinarith [sq_nonneg (c / 2 - M / 2 * y ^ 2)]

/-- The Bregman distance of sample `j` from `xs` to the point of the table. -/
def tableBreg (a : Fin n → Fin p → ℝ) (f g : Fin n → ℝ → ℝ) (xs : Fin p → ℝ) (j : Fin n) (w : Fin p → ℝ) : ℝ :=
  f j (rowProd a j xs) - f j (rowProd a j w) - g j (rowProd a j w) * (rowProd a j xs - rowProd a j w)

/-- The monotonicity gap of sample `j` between a point and `xs`. -/
def tableGap (a : Fin n → Fin p → ℝ) (g : Fin n → ℝ → ℝ) (xs : Fin p → ℝ) (j : Fin n) (w : Fin p → ℝ) : ℝ :=
  (g j (rowProd a j w) - g j (rowProd a j xs)) * (rowProd a j w - rowProd a j xs)

theorem TableLoss.breg_nonneg (h : TableLoss a f g M R) (xs : Fin p → ℝ) (j : Fin n) (w : Fin p → ℝ) : 0 ≤ tableBreg a f g xs j w := by
  unfold tableBreg; linarith [h.below j (rowProd a j w) (rowProd a j xs)]

theorem TableLoss.gap_nonneg (h : TableLoss a f g M R) (xs : Fin p → ℝ) (j : Fin n) (w : Fin p → ℝ) : 0 ≤ tableGap a g xs j w := h.mono j _ _

theorem TableLoss.breg_le_gap (h : TableLoss a f g M R) (xs : Fin p → ℝ) (j : Fin n) (w : Fin p → ℝ) : tableBreg a f g xs j w ≤ tableGap a g xs j w := by
  unfold tableBreg tableGap
  have := h.below j (rowProd a j xs) (rowProd a j w)
  nlinarith

/-- One prox half in the dense case. -/
theorem dense_half {φ : (Fin p → ℝ) → ℝ} {y z V x y' s G xs ys : Fin p → ℝ} (hstep : 0 ≤ step)
    (hprox : ∀ w, step * φ x + ∑ c, (2 * z c - y c - step * (1 / 2) * V c - x c) * (w c - x c) ≤ step * φ w)
    (hy : ∀ c, y' c = y c + (x c - z c)) (hsub : ∀ w, φ xs + ∑ c, s c * (w c - xs c) ≤ φ w) (hys : ∀ c, ys c = xs c - step * (G c / 2 + s c)) :
    sqDist y' ys + sqDist y' y ≤ sqDist y ys + ∑ c, (-2 * ((y c - ys c) - (z c - xs c)) * (z c - xs c) - step * (V c - G c) * (x c - xs c)) := by
  have h1 := hprox xs
  have h2 := mul_le_mul_of_nonneg_left (hsub x) hstep
  rw [mul_add, Finset.mul_sum] at h2
  have h3 : 0 ≤ ∑ c, 2 * ((2 * z c - y c - step * (1 / 2) * V c - x c - step * s c) * (x c - xs c)) := by
    rw [← Finset.mul_sum]
    have : ∑ c, (2 * z c - y c - step * (1 / 2) * V c - x c - step * s c) * (x c - xs c) =
        -(∑ c, (2 * z c - y c - step * (1 / 2) * V c - x c) * (xs c - x c)) - ∑ c, step * (s c * (x c - xs c)) := by
      rw [← Finset.sum_neg_distrib, ← Finset.sum_sub_distrib]
      exact Finset.sum_congr rfl fun c _ => by ring
    rw [this]
    linarith
  unfold sqDist
  rw [← sub_nonneg] at h3 ⊢
  refine h3.trans (le_of_eq ?_)
  rw [sub_zero, ← Finset.sum_add_distrib, ← Finset.sum_add_distrib, ← Finset.sum_sub_distrib]
  refine Finset.sum_congr rfl fun c _ => ?_
  rw [hy c, hys c]
  ring

end Step


section Run
variable {a : Fin n → Fin p → ℝ} {f g : Fin n → ℝ → ℝ} {M R alpha step : ℝ} {φ1 φ2 : (Fin p → ℝ) → ℝ} {seq : ℕ → Fin n}
  {y1 y2 x1 x2 z : ℕ → Fin p → ℝ} {mem : ℕ → Fin n → ℝ} {V : ℕ → Fin p → ℝ}

/-- The value of `Y` at a solution. -/
noncomputable def tableTarget (a : Fin n → Fin p → ℝ) (g : Fin n → ℝ → ℝ) (alpha step : ℝ) (xs s : Fin p → ℝ) : Fin p → ℝ := fun c =>
  xs c - step * (tableGrad a g alpha xs c / 2 + s c)

theorem sqDist_nonneg' (x y : Fin p → ℝ) : 0 ≤ sqDist x y := Finset.sum_nonneg fun _ _ => sq_nonneg _

theorem TableRun.mean_next (h : TableRun a g alpha step φ1 φ2 seq y1 y2 x1 x2 z mem V) (t : ℕ) (c : Fin p) :
    z (t + 1) c = (x1 (t + 1) c + x2 (t + 1) c) / 2 := by
  rw [h.mean (t + 1) c, h.move1, h.move2]
  have := h.mean t c
  linarith

/-- The moves of `Y` dominate those of `z`. -/
theorem TableRun.moves (h : TableRun a g alpha step φ1 φ2 seq y1 y2 x1 x2 z mem V) (t : ℕ) :
    2 * sqDist (z (t + 1)) (z t) ≤ sqDist (y1 (t + 1)) (y1 t) + sqDist (y2 (t + 1)) (y2 t) := by
  unfold sqDist
  rw [Finset.mul_sum, ← Finset.sum_add_distrib]
  refine Finset.sum_le_sum fun c _ => ?_
  rw [h.mean (t + 1) c, h.mean t c]
  nlinarith [sq_nonneg ((y1 (t + 1) c - y1 t c) - (y2 (t + 1) c - y2 t c))]

/-- The direction against a solution. -/
theorem TableRun.dir_inner (h : TableRun a g alpha step φ1 φ2 seq y1 y2 x1 x2 z mem V) (xs : Fin p → ℝ) (t : ℕ) (w : Fin p → ℝ) :
    ∑ c, (V t c - tableGrad a g alpha xs c) * (w c - xs c) =
      (g (seq t) (rowProd a (seq t) (z t)) - mem t (seq t)) * (rowProd a (seq t) w - rowProd a (seq t) xs) +
      (∑ j, (mem t j - g j (rowProd a j xs)) * (rowProd a j w - rowProd a j xs)) / n + alpha * ∑ c, (z t c - xs c) * (w c - xs c) := by
  have e1 : ∀ j, rowProd a j w - rowProd a j xs = ∑ c, a j c * (w c - xs c) := fun j => by rw [← rowProd_sub]; rfl
  have e2 : (∑ j, (mem t j - g j (rowProd a j xs)) * ∑ c, a j c * (w c - xs c)) =
      ∑ c, (∑ j, (mem t j - g j (rowProd a j xs)) * a j c) * (w c - xs c) := by
    simp only [Finset.mul_sum, Finset.sum_mul]
    rw [Finset.sum_comm]
    exact Finset.sum_congr rfl fun c _ => Finset.sum_congr rfl fun j _ => by ring
  simp only [e1]
  rw [e2, Finset.sum_div, Finset.mul_sum, Finset.mul_sum, ← Finset.sum_add_distrib, ← Finset.sum_add_distrib]
  refine Finset.sum_congr rfl fun c _ => ?_
  rw [h.dir t c]
  simp only [tableGrad, sub_mul, Finset.sum_sub_distrib]
  ring

/-- One iteration. -/
theorem TableRun.step_descent (h : TableRun a g alpha step φ1 φ2 seq y1 y2 x1 x2 z mem V) (hl : TableLoss a f g M R) (hstep : 0 ≤ step)
    {xs s1 s2 : Fin p → ℝ} (hd : TableDual a g alpha φ1 φ2 xs s1 s2) (t : ℕ) (w : Fin n → Fin p → ℝ) (hw : ∀ j, mem t j = g j (rowProd a j (w j)))
    {K : ℝ} (hK : 0 < K) :
    (sqDist (y1 (t + 1)) (tableTarget a g alpha step xs s1) + sqDist (y2 (t + 1)) (tableTarget a g alpha step xs s2)) +
      2 * step * (∑ j, tableBreg a f g xs j (Function.update w (seq t) (z t) j)) +
      (sqDist (y1 (t + 1)) (y1 t) + sqDist (y2 (t + 1)) (y2 t)) + (step / n * (∑ j, tableGap a g xs j (w j)) +
      step * alpha * (sqDist (z t) xs + sqDist (z (t + 1)) xs)) ≤
    (sqDist (y1 t) (tableTarget a g alpha step xs s1) + sqDist (y2 t) (tableTarget a g alpha step xs s2)) +
      2 * step * (∑ j, tableBreg a f g xs j (w j)) + step * (M * R) * (sqDist (z t) (w (seq t)) / K + K * sqDist (z (t + 1)) (z t)) +
      step * (M * R) / n * (∑ j, sqDist (z (t + 1)) (w j)) + step * alpha * sqDist (z (t + 1)) (z t) := by
  have hn : (0 : ℝ) < n := by exact_mod_cast hl.samples
  have hM := hl.M_nonneg
  set G := tableGrad a g alpha xs with hG
  set i := seq t with hi
  have d1 := dense_half hstep (h.prox1 t) (h.move1 t) hd.sub1 (ys := tableTarget a g alpha step xs s1) (G := G) (fun c => rfl)
  have d2 := dense_half hstep (h.prox2 t) (h.move2 t) hd.sub2 (ys := tableTarget a g alpha step xs s2) (G := G) (fun c => rfl)
  -- the halves together
  have e0 : (∑ c, (-2 * ((y1 t c - tableTarget a g alpha step xs s1 c) - (z t c - xs c)) * (z t c - xs c) - step * (V t c - G c) * (x1 (t + 1) c - xs c))) +
      (∑ c, (-2 * ((y2 t c - tableTarget a g alpha step xs s2 c) - (z t c - xs c)) * (z t c - xs c) - step * (V t c - G c) * (x2 (t + 1) c - xs c))) =
      -(2 * step) * ∑ c, (V t c - G c) * (z (t + 1) c - xs c) := by
    rw [← Finset.sum_add_distrib, Finset.mul_sum]
    refine Finset.sum_congr rfl fun c _ => ?_
    have k1 := h.mean_next t c
    have k2 := h.mean t c
    have k3 := hd.sum c
    have k4 : x2 (t + 1) c = 2 * z (t + 1) c - x1 (t + 1) c := by linarith
    have k5 : y2 t c = 2 * z t c - y1 t c := by linarith
    have k6 : s2 c = -G c - s1 c := by rw [hG]; linarith
    simp only [tableTarget, ← hG]
    rw [k4, k5, k6]
    ring
  have e1 := h.dir_inner xs t (z (t + 1))
  rw [← hG, ← hi] at e1
  -- the correction
  set E := g i (rowProd a i (z t)) - mem t i with hE
  have c1 : tableBreg a f g xs i (z t) - tableBreg a f g xs i (w i) ≤ E * (rowProd a i (z t) - rowProd a i xs) := by
    unfold tableBreg
    rw [hE, hw i]
    have := hl.below i (rowProd a i (w i)) (rowProd a i (z t))
    nlinarith
  have c2 : 2 * |E * (rowProd a i (z (t + 1)) - rowProd a i (z t))| ≤ M * R * (sqDist (z t) (w i) / K + K * sqDist (z (t + 1)) (z t)) := by
    have b1 : |E| ≤ M * |rowProd a i (z t) - rowProd a i (w i)| := by rw [hE, hw i]; exact hl.lip i _ _
    have b2 := hl.row_sq i (z t) (w i)
    have b3 := hl.row_sq i (z (t + 1)) (z t)
    set P1 := rowProd a i (z t) - rowProd a i (w i)
    set P2 := rowProd a i (z (t + 1)) - rowProd a i (z t)
    rw [abs_mul]
    have b4 : |E| * |P2| ≤ M * (|P1| * |P2|) := by
      have := mul_le_mul_of_nonneg_right b1 (abs_nonneg P2)
      linarith
    have b5 : 2 * (|P1| * |P2|) ≤ P1 ^ 2 / K + K * P2 ^ 2 := by
      have h1 : 0 ≤ (|P1| - K * |P2|) ^ 2 / K := by positivity
      have h2 : (|P1| - K * |P2|) ^ 2 / K = P1 ^ 2 / K + K * P2 ^ 2 - 2 * (|P1| * |P2|) := by
        rw [← sq_abs P1, ← sq_abs P2]
        field_simp
        ring
      linarith
    have b6 : P1 ^ 2 / K + K * P2 ^ 2 ≤ R * (sqDist (z t) (w i) / K + K * sqDist (z (t + 1)) (z t)) := by
      have h1 := div_le_div_of_nonneg_right b2 hK.le
      have h2 := mul_le_mul_of_nonneg_left b3 hK.le
      calc _ ≤ R * sqDist (z t) (w i) / K + K * (R * sqDist (z (t + 1)) (z t)) := add_le_add h1 h2
        _ = _ := by ring
    have b7 := mul_le_mul_of_nonneg_left (b5.trans b6) hM
    linarith
  have c3 := neg_abs_le (E * (rowProd a i (z (t + 1)) - rowProd a i (z t)))
  have c4 : tableBreg a f g xs i (z t) - tableBreg a f g xs i (w i) - M * R * (sqDist (z t) (w i) / K + K * sqDist (z (t + 1)) (z t)) / 2 ≤
      E * (rowProd a i (z (t + 1)) - rowProd a i xs) := by
    have : E * (rowProd a i (z (t + 1)) - rowProd a i xs) = E * (rowProd a i (z t) - rowProd a i xs) + E * (rowProd a i (z (t + 1)) - rowProd a i (z t)) := by ring
    linarith
  -- the average
  have c5 : (∑ j, tableGap a g xs j (w j)) / 2 - M * R / 2 * (∑ j, sqDist (z (t + 1)) (w j)) ≤
      ∑ j, (mem t j - g j (rowProd a j xs)) * (rowProd a j (z (t + 1)) - rowProd a j xs) := by
    rw [Finset.mul_sum, Finset.sum_div, ← Finset.sum_sub_distrib]
    refine Finset.sum_le_sum fun j _ => ?_
    have b1 := half_young (y := rowProd a j (z (t + 1)) - rowProd a j (w j)) (hl.gap_nonneg xs j (w j)) hM (hl.coco j (rowProd a j (w j)) (rowProd a j xs))
    have b2 := neg_le_of_abs_le b1
    have b3 := mul_le_mul_of_nonneg_left (hl.row_sq j (z (t + 1)) (w j)) (by linarith : 0 ≤ M / 2)
    rw [hw j]
    have : (g j (rowProd a j (w j)) - g j (rowProd a j xs)) * (rowProd a j (z (t + 1)) - rowProd a j xs) = tableGap a g xs j (w j) +
        (g j (rowProd a j (w j)) - g j (rowProd a j xs)) * (rowProd a j (z (t + 1)) - rowProd a j (w j)) := by unfold tableGap; ring
    rw [this]
    linarith
  have c6 : 2 * step * ((∑ j, (mem t j - g j (rowProd a j xs)) * (rowProd a j (z (t + 1)) - rowProd a j xs)) / n) ≥
      step / n * (∑ j, tableGap a g xs j (w j)) - step * (M * R) / n * (∑ j, sqDist (z (t + 1)) (w j)) := by
    have := mul_le_mul_of_nonneg_left c5 (by positivity : 0 ≤ 2 * step / n)
    have e2 : 2 * step / n * ((∑ j, tableGap a g xs j (w j)) / 2 - M * R / 2 * (∑ j, sqDist (z (t + 1)) (w j))) =
      step / n * (∑ j, tableGap a g xs j (w j)) - step * (M * R) / n * (∑ j, sqDist (z (t + 1)) (w j)) := by ring
    rw [e2] at this
    refine this.trans (le_of_eq ?_)
    ring
  have c7 : 2 * ∑ c, (z t c - xs c) * (z (t + 1) c - xs c) = sqDist (z t) xs + sqDist (z (t + 1)) xs - sqDist (z (t + 1)) (z t) := by
    unfold sqDist
    rw [Finset.mul_sum, ← Finset.sum_add_distrib, ← Finset.sum_sub_distrib]
    exact Finset.sum_congr rfl fun c _ => by ring
  have c8 : (∑ j, tableBreg a f g xs j (Function.update w i (z t) j)) = (∑ j, tableBreg a f g xs j (w j)) + (tableBreg a f g xs i (z t) - tableBreg a f g xs i (w i)) := by
    rw [← sub_eq_iff_eq_add', ← Finset.sum_sub_distrib, Finset.sum_eq_single i]
    · rw [Function.update_self]
    · intro j _ hj
      rw [Function.update_of_ne hj, sub_self]
    · simp
  rw [c8]
  have c9 := mul_le_mul_of_nonneg_left c4 (by linarith : 0 ≤ 2 * step)
  rw [e1] at e0
  have c10 : 2 * step * (alpha * ∑ c, (z t c - xs c) * (z (t + 1) c - xs c)) = step * alpha * (sqDist (z t) xs + sqDist (z (t + 1)) xs - sqDist (z (t + 1)) (z t)) := by
    rw [← c7]; ring
  clear_value E G
  set B1 := ∑ j, tableBreg a f g xs j (w j)
  set B2 := tableBreg a f g xs i (z t) - tableBreg a f g xs i (w i)
  set Q1 := (∑ j, (mem t j - g j (rowProd a j xs)) * (rowProd a j (z (t + 1)) - rowProd a j xs)) / (n : ℝ)
  set Q2 := ∑ c, (z t c - xs c) * (z (t + 1) c - xs c)
  set Q3 := E * (rowProd a i (z (t + 1)) - rowProd a i xs)
  set Q4 := sqDist (z t) (w i) / K + K * sqDist (z (t + 1)) (z t)
  nlinarith

end Run

section Delay
variable {a : Fin n → Fin p → ℝ} {f g : Fin n → ℝ → ℝ} {M R alpha step : ℝ} {φ1 φ2 : (Fin p → ℝ) → ℝ} {seq : ℕ → Fin n}
  {y1 y2 x1 x2 z : ℕ → Fin p → ℝ} {mem : ℕ → Fin n → ℝ} {V : ℕ → Fin p → ℝ}

/-- The last visit of sample `j` before time `t`. -/
def lastVisit (seq : ℕ → Fin n) : ℕ → Fin n → ℕ
  | 0, _ => 0
  | t + 1, j => if seq t = j then t else lastVisit seq t j

theorem lastVisit_spec (h : TableRun a g alpha step φ1 φ2 seq y1 y2 x1 x2 z mem V) (j : Fin n) : ∀ t σ, σ < t → seq σ = j →
    σ ≤ lastVisit seq t j ∧ lastVisit seq t j < t ∧ mem t j = g j (rowProd a j (z (lastVisit seq t j)))
  | t + 1, σ, hσ, hs => by
    have e : lastVisit seq (t + 1) j = if seq t = j then t else lastVisit seq t j := rfl
    rw [e, h.table t]
    by_cases hc : seq t = j
    · rw [if_pos hc]
      subst hc
      exact ⟨by omega, by omega, Function.update_self _ _ _⟩
    · rw [if_neg hc, Function.update_of_ne (Ne.symm hc)]
      have hne : σ ≠ t := fun hh => hc (hh ▸ hs)
      obtain ⟨h1, h2, h3⟩ := lastVisit_spec h j t σ (by omega) hs
      exact ⟨h1, by omega, h3⟩

/-- Every sample is visited in every window of `N` iterations. -/
def Recurrent (seq : ℕ → Fin n) (N : ℕ) : Prop := ∀ t, N ≤ t → ∀ j, ∃ σ < t, t ≤ σ + N ∧ seq σ = j

/-- Convergence of the distance of `Y` to its value at any solution. -/
theorem TableRun.fejer (h : TableRun a g alpha step φ1 φ2 seq y1 y2 x1 x2 z mem V) (hl : TableLoss a f g M R) (hstep : 0 < step) (halpha : 0 ≤ alpha)
    (hs1 : 16 * step * (M * R) * n ^ 2 ≤ 1) (hs2 : 8 * step * alpha ≤ 1) (hrec : Recurrent seq (2 * n))
    {xs s1 s2 : Fin p → ℝ} (hd : TableDual a g alpha φ1 φ2 xs s1 s2) :
    Tendsto (fun t => sqDist (y1 (t + 1)) (y1 t) + sqDist (y2 (t + 1)) (y2 t)) atTop (nhds 0) ∧
    (∃ l, Tendsto (fun t => sqDist (y1 t) (tableTarget a g alpha step xs s1) + sqDist (y2 t) (tableTarget a g alpha step xs s2)) atTop (nhds l)) := by
  have hn : (1 : ℝ) ≤ n := by exact_mod_cast hl.samples
  have hMR : 0 ≤ M * R := mul_nonneg hl.M_nonneg hl.R_nonneg
  set N := 2 * n with hN
  have hNr : (N : ℝ) = 2 * n := by rw [hN]; push_cast; ring
  have hN0 : (0 : ℝ) < N := by rw [hNr]; linarith
  set w : ℕ → Fin n → Fin p → ℝ := fun t j => z (lastVisit seq t j) with hw
  set D : ℕ → ℝ := fun t => sqDist (y1 t) (tableTarget a g alpha step xs s1) + sqDist (y2 t) (tableTarget a g alpha step xs s2) with hDdef
  set r : ℕ → ℝ := fun t => sqDist (y1 (t + 1)) (y1 t) + sqDist (y2 (t + 1)) (y2 t) with hr
  set av : ℕ → ℝ := fun t => sqDist (z (t + 1)) (z t) with hav
  set gp : ℕ → ℝ := fun t => step / n * (∑ j, tableGap a g xs j (w t j)) + step * alpha * (sqDist (z t) xs + sqDist (z (t + 1)) xs) with hgp
  set Φ : ℕ → ℝ := fun t => D t + 2 * step * ∑ j, tableBreg a f g xs j (w t j) with hΦ
  have hD0 : ∀ t, 0 ≤ D t := fun t => add_nonneg (sqDist_nonneg' _ _) (sqDist_nonneg' _ _)
  have hgap0 : ∀ t, 0 ≤ ∑ j, tableGap a g xs j (w t j) := fun t => Finset.sum_nonneg fun j _ => hl.gap_nonneg xs j _
  have hbreg0 : ∀ t, 0 ≤ ∑ j, tableBreg a f g xs j (w t j) := fun t => Finset.sum_nonneg fun j _ => hl.breg_nonneg xs j _
  have hpart : ∀ t, 0 ≤ step / n * (∑ j, tableGap a g xs j (w t j)) := fun t => mul_nonneg (by positivity) (hgap0 t)
  have hpart2 : ∀ t, 0 ≤ step * alpha * (sqDist (z t) xs + sqDist (z (t + 1)) xs) := fun t =>
    mul_nonneg (mul_nonneg hstep.le halpha) (add_nonneg (sqDist_nonneg' _ _) (sqDist_nonneg' _ _))
  have key := delayed_descent (Φ := Φ) (r := r) (g := gp) (a := av) (N := N) (k1 := step * (M * R) * (N + 2) + step * alpha) (k2 := step * (M * R) * (1 + 2 * N))
    (fun t => add_nonneg (hD0 t) (mul_nonneg (by linarith) (hbreg0 t))) (fun t => add_nonneg (hpart t) (hpart2 t)) (fun t => sqDist_nonneg' _ _) (fun t => h.moves t)
    (by positivity) (by
      rw [hNr]
      have h1 : step * (M * R) * (2 + 4 * n + 8 * n ^ 2 : ℝ) ≤ step * (M * R) * (14 * n ^ 2) :=
        mul_le_mul_of_nonneg_left (by nlinarith) (mul_nonneg hstep.le hMR)
      nlinarith) (fun t ht => ?_)
  · obtain ⟨k1, k2, l, k3⟩ := key
    refine ⟨k1, l, ?_⟩
    have hgl : Tendsto (fun t => step / n * (∑ j, tableGap a g xs j (w t j))) atTop (nhds 0) :=
      squeeze_zero hpart (fun t => by simp only [hgp]; linarith [hpart2 t]) k2
    have hbl : Tendsto (fun t => 2 * step * ∑ j, tableBreg a f g xs j (w t j)) atTop (nhds 0) := by
      refine squeeze_zero (fun t => mul_nonneg (by linarith) (hbreg0 t)) (fun t => ?_) (by simpa using hgl.const_mul (2 * (n : ℝ)))
      have h1 : ∑ j, tableBreg a f g xs j (w t j) ≤ ∑ j, tableGap a g xs j (w t j) := Finset.sum_le_sum fun j _ => hl.breg_le_gap xs j _
      have h2 : 2 * (n : ℝ) * (step / n * (∑ j, tableGap a g xs j (w t j))) = 2 * step * ∑ j, tableGap a g xs j (w t j) := by
        have : (n : ℝ) ≠ 0 := by linarith
        field_simp
      rw [h2]
      exact mul_le_mul_of_nonneg_left h1 (by linarith)
    have := k3.sub hbl
    simpa [hΦ] using this
  · have hvis : ∀ j, mem t j = g j (rowProd a j (w t j)) ∧ ∀ W, W = ∑ s ∈ Finset.range N, av (t - N + s) → sqDist (z t) (w t j) ≤ N * W := by
      intro j
      obtain ⟨σ, hσ, hσ2, hs⟩ := hrec t ht j
      obtain ⟨h1, h2, h3⟩ := lastVisit_spec h j t σ hσ hs
      refine ⟨h3, fun W hW => ?_⟩
      rw [hW]
      exact sqDist_delay z h2.le (by omega) ht
    have hwn : w (t + 1) = Function.update (w t) (seq t) (z t) := by
      funext j
      have e : lastVisit seq (t + 1) j = if seq t = j then t else lastVisit seq t j := rfl
      simp only [hw]
      rw [e]
      by_cases hc : seq t = j
      · subst hc; rw [if_pos rfl, Function.update_self]
      · rw [if_neg hc, Function.update_of_ne (Ne.symm hc)]
    have s0 := h.step_descent hl hstep.le hd t (w t) (fun j => (hvis j).1) hN0
    rw [← hwn] at s0
    set W := ∑ s ∈ Finset.range N, av (t - N + s) with hW
    have hd1 : sqDist (z t) (w t (seq t)) / N ≤ W := by
      rw [div_le_iff₀ hN0]
      linarith [(hvis (seq t)).2 W hW]
    have hd2 : ∀ j, sqDist (z (t + 1)) (w t j) ≤ 2 * av t + 2 * (N * W) := by
      intro j
      have h1 := (hvis j).2 W hW
      have h2 : sqDist (z (t + 1)) (w t j) ≤ 2 * sqDist (z (t + 1)) (z t) + 2 * sqDist (z t) (w t j) := by
        unfold sqDist
        rw [Finset.mul_sum, Finset.mul_sum, ← Finset.sum_add_distrib]
        refine Finset.sum_le_sum fun c _ => ?_
        nlinarith [sq_nonneg ((z (t + 1) c - z t c) - (z t c - w t j c))]
      simp only [hav]
      linarith
    have hd3 : step * (M * R) / n * (∑ j, sqDist (z (t + 1)) (w t j)) ≤ step * (M * R) * (2 * av t + 2 * (N * W)) := by
      have h1 : (∑ j, sqDist (z (t + 1)) (w t j)) ≤ n * (2 * av t + 2 * (N * W)) := by
        refine (Finset.sum_le_sum fun j _ => hd2 j).trans (le_of_eq ?_)
        rw [Finset.sum_const, nsmul_eq_mul, Finset.card_univ, Fintype.card_fin]
      refine (mul_le_mul_of_nonneg_left h1 (by positivity)).trans (le_of_eq ?_)
      field_simp
    have hd4 : step * (M * R) * (sqDist (z t) (w t (seq t)) / N + N * sqDist (z (t + 1)) (z t)) ≤ step * (M * R) * (W + N * av t) :=
      mul_le_mul_of_nonneg_left (add_le_add hd1 le_rfl) (by positivity)
    simp only [hΦ, hDdef, hr, hgp]
    have e1 : step * alpha * sqDist (z (t + 1)) (z t) = step * alpha * av t := rfl
    rw [e1] at s0
    calc _ ≤ _ := s0
      _ ≤ (sqDist (y1 t) (tableTarget a g alpha step xs s1) + sqDist (y2 t) (tableTarget a g alpha step xs s2)) +
      2 * step * (∑ j, tableBreg a f g xs j (w t j)) + step * (M * R) * (W + N * av t) +
      step * (M * R) * (2 * av t + 2 * (N * W)) + step * alpha * av t := add_le_add (add_le_add (add_le_add le_rfl hd4) hd3) le_rfl
      _ = _ := by ring

end Delay

section Limit
variable {a : Fin n → Fin p → ℝ} {f g : Fin n → ℝ → ℝ} {M R alpha step : ℝ} {φ1 φ2 : (Fin p → ℝ) → ℝ} {seq : ℕ → Fin n}
  {y1 y2 x1 x2 z : ℕ → Fin p → ℝ} {mem : ℕ → Fin n → ℝ} {V : ℕ → Fin p → ℝ}

theorem sq_le_sqDist (x y : Fin p → ℝ) (c : Fin p) : (x c - y c) ^ 2 ≤ sqDist x y :=
  Finset.single_le_sum (f := fun c => (x c - y c) ^ 2) (fun _ _ => sq_nonneg _) (Finset.mem_univ c)

theorem tendsto_of_sqDist {α : Type} {F : Filter α} {x y : α → Fin p → ℝ} (h : Tendsto (fun t => sqDist (x t) (y t)) F (nhds 0)) (c : Fin p) :
    Tendsto (fun t => x t c - y t c) F (nhds 0) := by
  have h1 : Tendsto (fun t => |x t c - y t c|) F (nhds 0) := by
    refine squeeze_zero (fun t => abs_nonneg _) (fun t => ?_) (by simpa using (Real.continuous_sqrt.tendsto 0).comp h)
    exact Real.abs_le_sqrt (sq_le_sqDist (x t) (y t) c)
  exact (tendsto_zero_iff_abs_tendsto_zero _).mpr h1

/-- The limit of one prox half. -/
theorem half_limit {φ : (Fin p → ℝ) → ℝ} (hφ : Continuous φ) {α : Type} {F : Filter α} [F.NeBot] {x : α → Fin p → ℝ} {q : α → Fin p → ℝ} {xl ql : Fin p → ℝ}
    (hx : Tendsto x F (nhds xl)) (hq : Tendsto q F (nhds ql)) {step : ℝ}
    (h : ∀ t w, step * φ (x t) + ∑ c, (q t c - x t c) * (w c - x t c) ≤ step * φ w) (w : Fin p → ℝ) :
    step * φ xl + ∑ c, (ql c - xl c) * (w c - xl c) ≤ step * φ w := by
  refine le_of_tendsto (f := fun t => step * φ (x t) + ∑ c, (q t c - x t c) * (w c - x t c)) (x := F) ?_ (Eventually.of_forall fun t => h t w)
  have hx' := tendsto_pi_nhds.mp hx
  have hq' := tendsto_pi_nhds.mp hq
  exact ((hφ.tendsto xl).comp hx |>.const_mul step).add
    (tendsto_finsetSum _ fun c _ => ((hq' c).sub (hx' c)).mul ((hx' c).const_sub (w c)))

theorem TableLoss.cont (hl : TableLoss a f g M R) (j : Fin n) : Continuous (g j) := by
  have hM := hl.M_nonneg
  refine (LipschitzWith.of_dist_le_mul (K := ⟨M, hM⟩) fun s t => ?_).continuous
  rw [Real.dist_eq, Real.dist_eq]
  exact hl.lip j s t

theorem rowProd_tendsto {α : Type} {F : Filter α} {x : α → Fin p → ℝ} {xl : Fin p → ℝ} (hx : ∀ c, Tendsto (fun t => x t c) F (nhds (xl c))) (j : Fin n) :
    Tendsto (fun t => rowProd a j (x t)) F (nhds (rowProd a j xl)) :=
  tendsto_finsetSum _ fun c _ => (hx c).const_mul _

/-- **Convergence of the abstract iteration.** -/
theorem TableRun.converges (h : TableRun a g alpha step φ1 φ2 seq y1 y2 x1 x2 z mem V) (hl : TableLoss a f g M R) (hstep : 0 < step) (halpha : 0 ≤ alpha)
    (hs1 : 16 * step * (M * R) * n ^ 2 ≤ 1) (hs2 : 8 * step * alpha ≤ 1) (hrec : Recurrent seq (2 * n)) (hφ1 : Continuous φ1) (hφ2 : Continuous φ2)
    (hex : ∃ xs s1 s2, TableDual a g alpha φ1 φ2 xs s1 s2) :
    ∃ xs s1 s2, TableDual a g alpha φ1 φ2 xs s1 s2 ∧ (∀ c, Tendsto (fun t => z t c) atTop (nhds (xs c))) ∧
      (∀ c, Tendsto (fun t => x1 t c) atTop (nhds (xs c))) ∧ ∀ c, Tendsto (fun t => x2 t c) atTop (nhds (xs c)) := by
  obtain ⟨xs₀, s1₀, s2₀, hd₀⟩ := hex
  obtain ⟨hr, l₀, hl₀⟩ := h.fejer hl hstep halpha hs1 hs2 hrec hd₀
  -- the moves vanish
  have hr1 : Tendsto (fun t => sqDist (y1 (t + 1)) (y1 t)) atTop (nhds 0) :=
    squeeze_zero (fun t => sqDist_nonneg' _ _) (fun t => by linarith [sqDist_nonneg' (y2 (t + 1)) (y2 t)]) hr
  have hr2 : Tendsto (fun t => sqDist (y2 (t + 1)) (y2 t)) atTop (nhds 0) :=
    squeeze_zero (fun t => sqDist_nonneg' _ _) (fun t => by linarith [sqDist_nonneg' (y1 (t + 1)) (y1 t)]) hr
  have hz : Tendsto (fun t => sqDist (z (t + 1)) (z t)) atTop (nhds 0) :=
    squeeze_zero (fun t => sqDist_nonneg' _ _) (fun t => by linarith [h.moves t, sqDist_nonneg' (z (t + 1)) (z t)]) hr
  have hx1 : ∀ c, Tendsto (fun t => x1 (t + 1) c - z t c) atTop (nhds 0) := fun c => by
    refine (tendsto_of_sqDist hr1 c).congr fun t => ?_
    rw [h.move1]; ring
  have hx2 : ∀ c, Tendsto (fun t => x2 (t + 1) c - z t c) atTop (nhds 0) := fun c => by
    refine (tendsto_of_sqDist hr2 c).congr fun t => ?_
    rw [h.move2]; ring
  have hlag : ∀ j c, Tendsto (fun t => z t c - z (lastVisit seq t j) c) atTop (nhds 0) := by
    intro j c
    refine tendsto_of_sqDist ?_ c
    refine squeeze_zero' (g := fun t => ((2 * n : ℕ) : ℝ) * ∑ s ∈ Finset.range (2 * n), sqDist (z (t - 2 * n + s + 1)) (z (t - 2 * n + s)))
      (Eventually.of_forall fun t => sqDist_nonneg' _ _) (eventually_atTop.mpr ⟨2 * n, fun t ht => ?_⟩) ?_
    · obtain ⟨σ, hσ, hσ2, hs⟩ := hrec t ht j
      obtain ⟨k1, k2, -⟩ := lastVisit_spec h j t σ hσ hs
      exact sqDist_delay z k2.le (by omega) ht
    · have : Tendsto (fun t => ((2 * n : ℕ) : ℝ) * ∑ s ∈ Finset.range (2 * n), sqDist (z (t - 2 * n + s + 1)) (z (t - 2 * n + s))) atTop
          (nhds (((2 * n : ℕ) : ℝ) * ∑ s ∈ Finset.range (2 * n), 0)) := by
        refine Tendsto.const_mul _ (tendsto_finsetSum _ fun s _ => ?_)
        exact hz.comp ((tendsto_add_atTop_nat s).comp (tendsto_sub_atTop_nat (2 * n)))
      simpa using this
  -- a cluster point
  obtain ⟨C, hC⟩ := hl₀.bddAbove_range
  have hC' : ∀ t, sqDist (y1 t) (tableTarget a g alpha step xs₀ s1₀) + sqDist (y2 t) (tableTarget a g alpha step xs₀ s2₀) ≤ C := fun t => hC ⟨t, rfl⟩
  have hbd : ∀ t, (y1 t, y2 t) ∈ Metric.closedBall (tableTarget a g alpha step xs₀ s1₀, tableTarget a g alpha step xs₀ s2₀) (Real.sqrt C) := by
    intro t
    rw [Metric.mem_closedBall, Prod.dist_eq, max_le_iff]
    have k1 := sqDist_nonneg' (y1 t) (tableTarget a g alpha step xs₀ s1₀)
    have k2 := sqDist_nonneg' (y2 t) (tableTarget a g alpha step xs₀ s2₀)
    refine ⟨(dist_pi_le_iff (Real.sqrt_nonneg _)).mpr fun c => ?_, (dist_pi_le_iff (Real.sqrt_nonneg _)).mpr fun c => ?_⟩
    · rw [Real.dist_eq]
      exact Real.abs_le_sqrt ((sq_le_sqDist _ _ c).trans (by linarith [hC' t]))
    · rw [Real.dist_eq]
      exact Real.abs_le_sqrt ((sq_le_sqDist _ _ c).trans (by linarith [hC' t]))
  obtain ⟨⟨Y1, Y2⟩, -, ψ, hψ, hlim⟩ := tendsto_subseq_of_bounded Metric.isBounded_closedBall hbd
  have hψt := hψ.tendsto_atTop
  have hY1 : ∀ c, Tendsto (fun k => y1 (ψ k) c) atTop (nhds (Y1 c)) := fun c => by
    have := (continuous_fst.tendsto (Y1, Y2)).comp hlim
    exact tendsto_pi_nhds.mp this c
  have hY2 : ∀ c, Tendsto (fun k => y2 (ψ k) c) atTop (nhds (Y2 c)) := fun c => by
    have := (continuous_snd.tendsto (Y1, Y2)).comp hlim
    exact tendsto_pi_nhds.mp this c
  set xs : Fin p → ℝ := fun c => (Y1 c + Y2 c) / 2 with hxs
  have hzk : ∀ c, Tendsto (fun k => z (ψ k) c) atTop (nhds (xs c)) := fun c => by
    refine (((hY1 c).add (hY2 c)).div_const 2).congr fun k => (h.mean (ψ k) c).symm
  have hxk1 : ∀ c, Tendsto (fun k => x1 (ψ k + 1) c) atTop (nhds (xs c)) := fun c => by
    have := ((hx1 c).comp hψt).add (hzk c)
    simpa using this
  have hxk2 : ∀ c, Tendsto (fun k => x2 (ψ k + 1) c) atTop (nhds (xs c)) := fun c => by
    have := ((hx2 c).comp hψt).add (hzk c)
    simpa using this
  have hmem : ∀ j, Tendsto (fun k => mem (ψ k) j) atTop (nhds (g j (rowProd a j xs))) := by
    intro j
    have k1 : ∀ c, Tendsto (fun k => z (lastVisit seq (ψ k) j) c) atTop (nhds (xs c)) := fun c => by
      have := (hzk c).sub ((hlag j c).comp hψt)
      simpa using this
    have k2 := ((hl.cont j).tendsto _).comp (rowProd_tendsto (a := a) k1 j)
    refine k2.congr' ?_
    have hev : ∀ᶠ k in atTop, 2 * n ≤ ψ k := hψt.eventually_ge_atTop _
    refine hev.mono fun k hk => ?_
    obtain ⟨σ, hσ, hσ2, hs⟩ := hrec (ψ k) hk j
    exact (lastVisit_spec h j (ψ k) σ hσ hs).2.2.symm
  have hgz : ∀ j, Tendsto (fun k => g j (rowProd a j (z (ψ k)))) atTop (nhds (g j (rowProd a j xs))) := fun j =>
    ((hl.cont j).tendsto _).comp (rowProd_tendsto (a := a) hzk j)
  have hV : ∀ c, Tendsto (fun k => V (ψ k) c) atTop (nhds (tableGrad a g alpha xs c)) := by
    intro c
    have k1 : Tendsto (fun k => (g (seq (ψ k)) (rowProd a (seq (ψ k)) (z (ψ k))) - mem (ψ k) (seq (ψ k))) * a (seq (ψ k)) c) atTop (nhds 0) := by
      rw [tendsto_zero_iff_abs_tendsto_zero]
      have : Tendsto (fun k => ∑ j, |(g j (rowProd a j (z (ψ k))) - mem (ψ k) j) * a j c|) atTop (nhds 0) := by
        have h0 : Tendsto (fun k => ∑ j, |(g j (rowProd a j (z (ψ k))) - mem (ψ k) j) * a j c|) atTop
            (nhds (∑ j, |(g j (rowProd a j xs) - g j (rowProd a j xs)) * a j c|)) :=
          tendsto_finsetSum _ fun j _ => (((hgz j).sub (hmem j)).mul_const _).abs
        simpa using h0
      refine squeeze_zero (fun k => abs_nonneg _) (fun k => ?_) this
      exact Finset.single_le_sum (f := fun j => |(g j (rowProd a j (z (ψ k))) - mem (ψ k) j) * a j c|) (fun _ _ => abs_nonneg _) (Finset.mem_univ _)
    have k2 : Tendsto (fun k => (∑ j, mem (ψ k) j * a j c) / (n : ℝ) + alpha * z (ψ k) c) atTop (nhds (tableGrad a g alpha xs c)) :=
      ((tendsto_finsetSum _ fun j _ => (hmem j).mul_const _).div_const _).add ((hzk c).const_mul alpha)
    have := k1.add k2
    rw [zero_add] at this
    refine this.congr fun k => ?_
    rw [h.dir]; ring
  -- its subgradients
  have lim1 := half_limit hφ1 (x := fun k => x1 (ψ k + 1)) (q := fun k c => 2 * z (ψ k) c - y1 (ψ k) c - step * (1 / 2) * V (ψ k) c) (F := atTop)
    (xl := xs) (ql := fun c => 2 * xs c - Y1 c - step * (1 / 2) * tableGrad a g alpha xs c) (tendsto_pi_nhds.mpr hxk1)
    (tendsto_pi_nhds.mpr fun c => (((hzk c).const_mul 2).sub (hY1 c)).sub ((hV c).const_mul _)) (fun k w => h.prox1 (ψ k) w)
  have lim2 := half_limit hφ2 (x := fun k => x2 (ψ k + 1)) (q := fun k c => 2 * z (ψ k) c - y2 (ψ k) c - step * (1 / 2) * V (ψ k) c) (F := atTop)
    (xl := xs) (ql := fun c => 2 * xs c - Y2 c - step * (1 / 2) * tableGrad a g alpha xs c) (tendsto_pi_nhds.mpr hxk2)
    (tendsto_pi_nhds.mpr fun c => (((hzk c).const_mul 2).sub (hY2 c)).sub ((hV c).const_mul _)) (fun k w => h.prox2 (ψ k) w)
  have hsub : ∀ {φ : (Fin p → ℝ) → ℝ} {Y : Fin p → ℝ}, (∀ w, step * φ xs + ∑ c, ((2 * xs c - Y c - step * (1 / 2) * tableGrad a g alpha xs c) - xs c) * (w c - xs c) ≤ step * φ w) →
      ∀ w, φ xs + ∑ c, ((xs c - Y c) / step - tableGrad a g alpha xs c / 2) * (w c - xs c) ≤ φ w := by
    intro φ Y hh w
    have h1 := hh w
    have e : ∑ c, ((2 * xs c - Y c - step * (1 / 2) * tableGrad a g alpha xs c) - xs c) * (w c - xs c) =
        step * ∑ c, ((xs c - Y c) / step - tableGrad a g alpha xs c / 2) * (w c - xs c) := by
      rw [Finset.mul_sum]
      refine Finset.sum_congr rfl fun c _ => ?_
      field_simp
      ring
    rw [e, ← mul_add] at h1
    exact le_of_mul_le_mul_left h1 hstep
  have hd : TableDual a g alpha φ1 φ2 xs (fun c => (xs c - Y1 c) / step - tableGrad a g alpha xs c / 2) (fun c => (xs c - Y2 c) / step - tableGrad a g alpha xs c / 2) := by
    refine ⟨hsub lim1, hsub lim2, fun c => ?_⟩
    simp only [hxs]
    ring
  have ht : ∀ Y : Fin p → ℝ, tableTarget a g alpha step xs (fun c => (xs c - Y c) / step - tableGrad a g alpha xs c / 2) = Y := by
    intro Y
    funext c
    unfold tableTarget
    field_simp
    ring
  obtain ⟨-, l, hl1⟩ := h.fejer hl hstep halpha hs1 hs2 hrec hd
  rw [ht Y1, ht Y2] at hl1
  have hl0 : l = 0 := by
    refine tendsto_nhds_unique (hl1.comp hψt) ?_
    have : Tendsto (fun k => (∑ c, (y1 (ψ k) c - Y1 c) ^ 2) + ∑ c, (y2 (ψ k) c - Y2 c) ^ 2) atTop (nhds ((∑ c, (Y1 c - Y1 c) ^ 2) + ∑ c, (Y2 c - Y2 c) ^ 2)) :=
      (tendsto_finsetSum _ fun c _ => ((hY1 c).sub_const _).pow 2).add (tendsto_finsetSum _ fun c _ => ((hY2 c).sub_const _).pow 2)
    simp only [sub_self, ne_eq, OfNat.ofNat_ne_zero, not_false_eq_true, zero_pow, Finset.sum_const_zero, add_zero] at this
    exact this
  rw [hl0] at hl1
  have f1 : ∀ c, Tendsto (fun t => y1 t c) atTop (nhds (Y1 c)) := fun c => by
    have k1 : Tendsto (fun t => sqDist (y1 t) Y1) atTop (nhds 0) :=
      squeeze_zero (fun t => sqDist_nonneg' _ _) (fun t => by linarith [sqDist_nonneg' (y2 t) Y2]) hl1
    have := (tendsto_of_sqDist k1 c).add_const (Y1 c)
    simpa using this
  have f2 : ∀ c, Tendsto (fun t => y2 t c) atTop (nhds (Y2 c)) := fun c => by
    have k1 : Tendsto (fun t => sqDist (y2 t) Y2) atTop (nhds 0) :=
      squeeze_zero (fun t => sqDist_nonneg' _ _) (fun t => by linarith [sqDist_nonneg' (y1 t) Y1]) hl1
    have := (tendsto_of_sqDist k1 c).add_const (Y2 c)
    simpa using this
  have f3 : ∀ c, Tendsto (fun t => z t c) atTop (nhds (xs c)) := fun c =>
    (((f1 c).add (f2 c)).div_const 2).congr fun t => (h.mean t c).symm
  refine ⟨xs, _, _, hd, f3, fun c => (tendsto_add_atTop_iff_nat 1).mp ?_, fun c => (tendsto_add_atTop_iff_nat 1).mp ?_⟩
  · have := (hx1 c).add (f3 c)
    simpa using this
  · have := (hx2 c).add (f3 c)
    simpa using this

end Limit

end Copt
