import Verif.Props.SfwStops
import Verif.Proof.Objects
import Mathlib.Data.Fintype.CardEmbedding
import Mathlib.Data.List.OfFn

/-!
# C106: `minimize_sfw` converges in expectation
-/

set_option linter.unusedSectionVars false

namespace Copt

open Spec

/-! ### Sampling without replacement -/

/-- A sample belongs to a batch of `b` out of `n` with probability `b/n`. -/
theorem sum_embed_mem {b n : ℕ} (hn : 0 < n) (w : Fin n → ℝ) :
    ∑ e : Fin b ↪ Fin n, ∑ j, (if j ∈ List.ofFn e then w j else 0) = (b : ℝ) / n * (Fintype.card (Fin b ↪ Fin n) * ∑ j, w j) := by
  classical
  have hn' : (n : ℝ) ≠ 0 := by exact_mod_cast hn.ne'
  set N : Fin n → ℝ := fun j => ∑ e : Fin b ↪ Fin n, if j ∈ List.ofFn e then (1 : ℝ) else 0 with hN
  have hsym : ∀ j j', N j = N j' := by
    intro j j'
    refine Fintype.sum_equiv (Equiv.embeddingCongr (Equiv.refl _) (Equiv.swap j j')) _ _ fun e => ?_
    have : j ∈ List.ofFn e ↔ j' ∈ List.ofFn (Equiv.embeddingCongr (Equiv.refl (Fin b)) (Equiv.swap j j') e) := by
      simp only [List.mem_ofFn]
      refine exists_congr fun k => ?_
      show e k = j ↔ Equiv.swap j j' (e k) = j'
      rw [Equiv.swap_apply_eq_iff, Equiv.swap_apply_right]
    simp only [this]
  have hrow : ∀ e : Fin b ↪ Fin n, ∑ j, (if j ∈ List.ofFn e then (1 : ℝ) else 0) = b := by
    intro e
    have h1 : ∑ j, (if j ∈ List.ofFn e then (1 : ℝ) else 0) = ((Finset.univ.map e).card : ℝ) := by
      rw [Finset.sum_boole]
      congr 2
      ext j
      simp
    rw [h1, Finset.card_map, Finset.card_univ, Fintype.card_fin]
  have htot : ∑ j, N j = Fintype.card (Fin b ↪ Fin n) * b := by
    rw [hN]
    simp only
    rw [Finset.sum_comm, Finset.sum_congr rfl fun e _ => hrow e, Finset.sum_const, Finset.card_univ, nsmul_eq_mul]
  have hNj : ∀ j, N j = (b : ℝ) / n * Fintype.card (Fin b ↪ Fin n) := by
    intro j
    have h1 : ∑ j', N j' = n * N j := by
      rw [Finset.sum_congr rfl fun j' _ => hsym j' j, Finset.sum_const, Finset.card_univ, Fintype.card_fin, nsmul_eq_mul]
    rw [htot] at h1
    field_simp
    linarith
  rw [Finset.sum_comm]
  have : ∀ j, ∑ e : Fin b ↪ Fin n, (if j ∈ List.ofFn e then w j else 0) = N j * w j := by
    intro j
    rw [hN, Finset.sum_mul]
    exact Finset.sum_congr rfl fun e _ => by split <;> simp
  simp only [this, hNj]
  rw [Finset.mul_sum, Finset.mul_sum]
  exact Finset.sum_congr rfl fun j _ => by ring

variable {n p : ℕ} {V : Type} [DecidableEq V]

/-- The problem and the arguments of C106: losses convex in the prediction with `l`-Lipschitz derivative `f_deriv`, an exact vanilla oracle for the convex
set `C`, whose images under the samples have diameter at most `D`, and the default step size. -/
structure SfwRegular (P : SfwArgs ℝ n p V) (C : Set (Fin p → ℝ)) (phi : ℝ → ℝ → ℝ) (l D : ℝ) : Prop where
  samples : 0 < n
  batch : 0 < P.batchSize
  batch_le : P.batchSize ≤ n
  step : P.stepSize = .sublinear
  vanilla : P.lmoVariant = "vanilla"
  conv : ∀ x ∈ C, ∀ y ∈ C, ∀ t : ℝ, 0 ≤ t → t ≤ 1 → (fun c => (1 - t) * x c + t * y c) ∈ C
  lmo : IsExactLmo C P.lmo
  start : P.x0 ∈ C
  deriv : ∀ t b, HasDerivAt (fun s => phi s b) (P.deriv t b) t
  mono : ∀ b, Monotone fun t => P.deriv t b
  lip : ∀ s t b, |P.deriv s b - P.deriv t b| ≤ l * |s - t|
  lip_nonneg : 0 ≤ l
  diam : ∀ x ∈ C, ∀ y ∈ C, ∀ i, |sfwDot P x i - sfwDot P y i| ≤ D

/-- The objective `(1/n) ∑ f(⟨A_i, x⟩, b_i)`. -/
noncomputable def sfwObj (P : SfwArgs ℝ n p V) (phi : ℝ → ℝ → ℝ) (x : Fin p → ℝ) : ℝ := finiteSum P.a P.b phi 0 x

theorem sfwObj_eq (P : SfwArgs ℝ n p V) (phi : ℝ → ℝ → ℝ) (x : Fin p → ℝ) : sfwObj P phi x = (∑ i, phi (sfwDot P x i) (P.b i)) / n := by
  unfold sfwObj finiteSum sfwDot
  rw [zero_div, zero_mul, add_zero]

theorem sfwDot_comb (P : SfwArgs ℝ n p V) (x s : Fin p → ℝ) (g : ℝ) (i : Fin n) :
    sfwDot P (fun c => x c + g * (s c - x c)) i = sfwDot P x i + g * (sfwDot P s i - sfwDot P x i) := by
  unfold sfwDot
  rw [← Finset.sum_sub_distrib, Finset.mul_sum, ← Finset.sum_add_distrib]
  exact Finset.sum_congr rfl fun c _ => by ring

variable {P : SfwArgs ℝ n p V} {C : Set (Fin p → ℝ)} {phi : ℝ → ℝ → ℝ} {l D : ℝ}

/-- One Frank-Wolfe step along the direction of an oracle called with an inexact gradient `∑ δ_j A_j`. -/
theorem sfw_descent (hreg : SfwRegular P C phi l D) {x z s : Fin p → ℝ} (hx : x ∈ C) (hz : z ∈ C) (hs : s ∈ C) {δ : Fin n → ℝ} {κ γ : ℝ} (hκ : 0 ≤ κ)
    (hopt : ∑ c, -(∑ j, δ j * P.a j c) * z c ≤ ∑ c, -(∑ j, δ j * P.a j c) * s c) (h0 : 0 ≤ γ) :
    sfwObj P phi (fun c => x c + γ * (s c - x c)) - sfwObj P phi z ≤ (1 - γ) * (sfwObj P phi x - sfwObj P phi z) +
      γ * (D / n * ∑ j, |P.deriv (sfwDot P x j) (P.b j) - κ * δ j|) + l * γ ^ 2 * D ^ 2 / 2 := by
  have hn : (0 : ℝ) < n := by exact_mod_cast hreg.samples
  set g : Fin n → ℝ := fun j => P.deriv (sfwDot P x j) (P.b j) with hg
  have hper : ∀ j, phi (sfwDot P (fun c => x c + γ * (s c - x c)) j) (P.b j) - phi (sfwDot P z j) (P.b j) ≤
      (1 - γ) * (phi (sfwDot P x j) (P.b j) - phi (sfwDot P z j) (P.b j)) + γ * (g j * (sfwDot P s j - sfwDot P z j)) + l * γ ^ 2 * D ^ 2 / 2 := by
    intro j
    rw [sfwDot_comb]
    have h1 := quad_upper_1d (fun t => hreg.deriv t (P.b j)) (fun s t => hreg.lip s t (P.b j)) (sfwDot P x j) (sfwDot P x j + γ * (sfwDot P s j - sfwDot P x j))
    have h2 := convex_1d (fun t => hreg.deriv t (P.b j)) (hreg.mono (P.b j)) (sfwDot P x j) (sfwDot P z j)
    have h3 : (sfwDot P s j - sfwDot P x j) ^ 2 ≤ D ^ 2 := sq_le_sq' (by linarith [(abs_le.mp (hreg.diam s hs x hx j)).1]) (abs_le.mp (hreg.diam s hs x hx j)).2
    have h4 : l * γ ^ 2 / 2 * (sfwDot P s j - sfwDot P x j) ^ 2 ≤ l * γ ^ 2 / 2 * D ^ 2 :=
      mul_le_mul_of_nonneg_left h3 (by have := hreg.lip_nonneg; positivity)
    have h5 := mul_le_mul_of_nonneg_left h2 h0
    simp only [add_sub_cancel_left] at h1
    simp only [hg]
    nlinarith
  have hsum := Finset.sum_le_sum fun j (_ : j ∈ Finset.univ) => hper j
  rw [Finset.sum_sub_distrib, Finset.sum_add_distrib, Finset.sum_add_distrib, ← Finset.mul_sum, ← Finset.mul_sum, Finset.sum_sub_distrib, Finset.sum_const,
    Finset.card_univ, Fintype.card_fin, nsmul_eq_mul] at hsum
  have hδ : ∑ j, δ j * (sfwDot P s j - sfwDot P z j) ≤ 0 := by
    have e : ∀ y : Fin p → ℝ, ∑ c, -(∑ j, δ j * P.a j c) * y c = -∑ j, δ j * sfwDot P y j := by
      intro y
      unfold sfwDot
      simp only [Finset.mul_sum, neg_mul, Finset.sum_mul, Finset.sum_neg_distrib]
      rw [Finset.sum_comm]
      congr 1
      exact Finset.sum_congr rfl fun j _ => Finset.sum_congr rfl fun c _ => by ring
    rw [e, e] at hopt
    simp only [mul_sub, Finset.sum_sub_distrib]
    linarith
  have herr : ∑ j, g j * (sfwDot P s j - sfwDot P z j) ≤ D * ∑ j, |g j - κ * δ j| := by
    have e : ∑ j, g j * (sfwDot P s j - sfwDot P z j) = ∑ j, (g j - κ * δ j) * (sfwDot P s j - sfwDot P z j) + κ * ∑ j, δ j * (sfwDot P s j - sfwDot P z j) := by
      rw [Finset.mul_sum, ← Finset.sum_add_distrib]
      exact Finset.sum_congr rfl fun j _ => by ring
    have h1 : ∑ j, (g j - κ * δ j) * (sfwDot P s j - sfwDot P z j) ≤ D * ∑ j, |g j - κ * δ j| := by
      rw [Finset.mul_sum]
      refine Finset.sum_le_sum fun j _ => ?_
      refine (le_abs_self _).trans ?_
      rw [abs_mul, mul_comm]
      exact mul_le_mul_of_nonneg_right (hreg.diam s hs z hz j) (abs_nonneg _)
    have h2 := mul_nonpos_of_nonneg_of_nonpos hκ hδ
    linarith
  rw [sfwObj_eq, sfwObj_eq, sfwObj_eq, ← sub_div, ← sub_div, div_le_iff₀ hn]
  have h6 := mul_le_mul_of_nonneg_left herr h0
  refine hsum.trans ?_
  have e : ((1 - γ) * ((∑ i, phi (sfwDot P x i) (P.b i) - ∑ i, phi (sfwDot P z i) (P.b i)) / n) + γ * (D / n * ∑ j, |g j - κ * δ j|) + l * γ ^ 2 * D ^ 2 / 2) * n =
      (1 - γ) * (∑ i, phi (sfwDot P x i) (P.b i) - ∑ i, phi (sfwDot P z i) (P.b i)) + γ * (D * ∑ j, |g j - κ * δ j|) + n * (l * γ ^ 2 * D ^ 2 / 2) := by
    field_simp
  rw [e]
  linarith

/-! ### One step -/

/-- The factor between the dual variables and the derivatives they estimate: the MHK variant leaves out `1/n_samples` (randomized.py:895). -/
def sfwKappa (v : SfwVariant) (n : ℕ) : ℝ :=
  match v with
  | .SAG | .SAGA => n
  | _ => 1

/-- How far a drawn dual variable moves towards its derivative. -/
noncomputable def sfwGain (P : SfwArgs ℝ n p V) (v : SfwVariant) (t : ℕ) : ℝ :=
  match v with
  | .MHK => P.cbrtSq (2 / ((t : ℝ) + 8))
  | _ => 1

/-- By how much the SAGA estimate amplifies the error of the drawn samples. -/
def sfwExtra (v : SfwVariant) (n : ℕ) : ℝ :=
  match v with
  | .SAGA => n
  | _ => 0

/-- The error of the dual variable of sample `j`. -/
noncomputable def sfwErr (P : SfwArgs ℝ n p V) (v : SfwVariant) (st : SfwState ℝ n p V) (j : Fin n) : ℝ :=
  |P.deriv (sfwDot P st.x j) (P.b j) - sfwKappa v n * st.dual j|

/-- What is kept along a run: `x` in the set, no active set, and the aggregated gradient is that of the dual variables. -/
structure SfwInv (P : SfwArgs ℝ n p V) (C : Set (Fin p → ℝ)) (st : SfwState ℝ n p V) : Prop where
  mem : st.x ∈ C
  active : st.active = none
  agg : ∀ c, st.gradAgg c = ∑ i, st.dual i * P.a i c

theorem sfwKappa_nonneg (v : SfwVariant) : 0 ≤ sfwKappa v n := by cases v <;> simp [sfwKappa]

/-- The step size of variant `v` at counter `t`. -/
noncomputable def sfwGamma (P : SfwArgs ℝ n p V) (v : SfwVariant) (t : ℕ) : ℝ := (stepSizeSfw P.cbrtSq v t n P.batchSize).1

theorem sfw_step_batch (hreg : SfwRegular P C phi l D) {v : SfwVariant} (hv : v ≠ .LF) (t : ℕ) (hρ : 0 ≤ sfwGain P v t ∧ sfwGain P v t ≤ 1)
    {st : SfwState ℝ n p V} (hst : SfwInv P C st) {batch : List (Fin n)} (hnd : batch.Nodup) {z : Fin p → ℝ} (hz : z ∈ C) :
    ∃ st', sfwStep P v t st batch = .ok (some st') ∧ SfwInv P C st' ∧
      sfwObj P phi st'.x - sfwObj P phi z ≤ (1 - sfwGamma P v t) * (sfwObj P phi st.x - sfwObj P phi z) +
        sfwGamma P v t * (D / n * ∑ j, (sfwErr P v st j + sfwExtra v n * if j ∈ batch then sfwErr P v st j else 0)) + l * sfwGamma P v t ^ 2 * D ^ 2 / 2 ∧
      ∑ j, sfwErr P v st' j ≤ ∑ j, (sfwErr P v st j - sfwGain P v t * if j ∈ batch then sfwErr P v st j else 0) + n * (l * sfwGamma P v t * D) := by
  have hn : (0 : ℝ) < n := by exact_mod_cast hreg.samples
  have hD : 0 ≤ D := (abs_nonneg _).trans (hreg.diam _ hz _ hz ⟨0, hreg.samples⟩)
  have hvan : IsVanillaLmo C P.lmo := fun u x => by
    obtain ⟨-, -, s, hs, hd, -⟩ := hreg.lmo u x
    exact ⟨s, hs, hd⟩
  obtain ⟨st', hstep, hmem, hact⟩ := C65_step P v C hreg.conv hvan hreg.step hreg.batch hreg.batch_le t st hst.active hst.mem batch
  obtain ⟨-, d, g, act, hd, hg, -, -, rfl⟩ := sfwStep_ok hstep
  have hg : g = sfwGamma P v t := hg hreg.step
  rw [if_neg (by rw [hreg.step]; simp)] at hd
  have hγ := (C64_step_sizes P.cbrtSq t n P.batchSize hreg.batch hreg.batch_le).1 v
  have hγ0 : 0 ≤ g := by rw [hg]; exact hγ.1.le
  obtain ⟨-, -, s, hs, hdir, hopt⟩ := hreg.lmo (fun c => -sfwEstimate P v st batch d.1 c) st.x
  have hagg : ∀ c, st.gradAgg c + sfwDelta P batch st.dual d.1 c = ∑ i, d.1 i * P.a i c := by
    intro c
    rw [hst.agg, sfwDelta_eq P hnd st.dual d.1 (fun i hi => sfwDual_out hd i hi), ← Finset.sum_add_distrib]
    exact Finset.sum_congr rfl fun i _ => by ring
  -- the dual variables
  have hdual : ∀ j, |P.deriv (sfwDot P st.x j) (P.b j) - sfwKappa v n * d.1 j| ≤
      sfwErr P v st j - sfwGain P v t * if j ∈ batch then sfwErr P v st j else 0 := by
    intro j
    by_cases hj : j ∈ batch
    · rw [if_pos hj]
      cases v with
      | LF => exact absurd rfl hv
      | MHK =>
        simp only [sfwDual, stepSizeSfw, Except.ok.injEq] at hd
        rw [← hd]
        simp only [assignAt, if_pos hj, sfwErr, sfwKappa, sfwGain] at hρ ⊢
        rw [show ∀ a b r : ℝ, a - 1 * (b + r * (a - b)) = (1 - r) * (a - 1 * b) by intro a b r; ring, abs_mul, abs_of_nonneg (by linarith)]
        exact le_of_eq (by ring)
      | SAG =>
        simp only [sfwDual, Except.ok.injEq] at hd
        rw [← hd]
        simp only [assignAt, if_pos hj, sfwErr, sfwKappa, sfwGain]
        rw [← mul_assoc, mul_one_div_cancel hn.ne', one_mul, sub_self, abs_zero, one_mul, sub_self]
      | SAGA =>
        simp only [sfwDual, Except.ok.injEq] at hd
        rw [← hd]
        simp only [assignAt, if_pos hj, sfwErr, sfwKappa, sfwGain]
        rw [← mul_assoc, mul_one_div_cancel hn.ne', one_mul, sub_self, abs_zero, one_mul, sub_self]
    · rw [if_neg hj, sfwDual_out hd j hj, mul_zero, sub_zero]
      exact le_refl _
  -- the estimate
  obtain ⟨δ, hest, hδ⟩ : ∃ δ : Fin n → ℝ, (∀ c, sfwEstimate P v st batch d.1 c = ∑ j, δ j * P.a j c) ∧
      ∀ j, |P.deriv (sfwDot P st.x j) (P.b j) - sfwKappa v n * δ j| ≤ sfwErr P v st j + sfwExtra v n * if j ∈ batch then sfwErr P v st j else 0 := by
    have hE : ∀ j, 0 ≤ sfwErr P v st j := fun j => abs_nonneg _
    cases v with
    | LF => exact absurd rfl hv
    | MHK =>
      refine ⟨d.1, hagg, fun j => (hdual j).trans ?_⟩
      have : 0 ≤ sfwGain P .MHK t * if j ∈ batch then sfwErr P .MHK st j else 0 := mul_nonneg hρ.1 (by split; exact hE j; exact le_refl _)
      simp only [sfwExtra, zero_mul]
      linarith
    | SAG =>
      refine ⟨d.1, hagg, fun j => (hdual j).trans ?_⟩
      have : 0 ≤ sfwGain P .SAG t * if j ∈ batch then sfwErr P .SAG st j else 0 := mul_nonneg hρ.1 (by split; exact hE j; exact le_refl _)
      simp only [sfwExtra, zero_mul]
      linarith
    | SAGA =>
      refine ⟨fun j => d.1 j + ((n : ℝ) - 1) * (d.1 j - st.dual j), fun c => ?_, fun j => ?_⟩
      · show st.gradAgg c + sfwDelta P batch st.dual d.1 c + ((n : ℝ) - 1) * sfwDelta P batch st.dual d.1 c = _
        rw [hagg, sfwDelta_eq P hnd st.dual d.1 (fun i hi => sfwDual_out hd i hi), Finset.mul_sum, ← Finset.sum_add_distrib]
        exact Finset.sum_congr rfl fun i _ => by ring
      · by_cases hj : j ∈ batch
        · rw [if_pos hj]
          have e : d.1 j = 1 / (n : ℝ) * P.deriv (sfwDot P st.x j) (P.b j) := by
            simp only [sfwDual, Except.ok.injEq] at hd
            rw [← hd]
            exact if_pos hj
          simp only [e, sfwKappa, sfwExtra]
          have e2 : P.deriv (sfwDot P st.x j) (P.b j) - (n : ℝ) * (1 / (n : ℝ) * P.deriv (sfwDot P st.x j) (P.b j) +
              ((n : ℝ) - 1) * (1 / (n : ℝ) * P.deriv (sfwDot P st.x j) (P.b j) - st.dual j)) =
              -(((n : ℝ) - 1) * (P.deriv (sfwDot P st.x j) (P.b j) - (n : ℝ) * st.dual j)) := by
            field_simp
            ring
          have hn1 : (1 : ℝ) ≤ n := by exact_mod_cast hreg.samples
          rw [e2, abs_neg, abs_mul, abs_of_nonneg (by linarith)]
          have := hE j
          show ((n : ℝ) - 1) * sfwErr P .SAGA st j ≤ _
          linarith
        · simp only
          rw [if_neg hj, sfwDual_out hd j hj, sub_self, mul_zero, add_zero, mul_zero, add_zero]
          exact le_refl _
  have hx' : (fun c => st.x c + g * (P.lmo (fun c => -sfwEstimate P v st batch d.1 c) st.x st.active).dir c) = fun c => st.x c + g * (s c - st.x c) := by
    rw [hst.active, hdir]
  refine ⟨_, hstep, ⟨hmem, hact, hagg⟩, ?_, ?_⟩
  · show sfwObj P phi (fun c => st.x c + g * (P.lmo (fun c => -sfwEstimate P v st batch d.1 c) st.x st.active).dir c) - _ ≤ _
    rw [hx', ← hg]
    have h1 := hopt z hz
    simp only [hest] at h1
    refine (sfw_descent hreg hst.mem hz hs (sfwKappa_nonneg (n := n) v) h1 hγ0).trans ?_
    have h2 := Finset.sum_le_sum fun j (_ : j ∈ Finset.univ) => hδ j
    have h3 := mul_le_mul_of_nonneg_left h2 (mul_nonneg hγ0 (div_nonneg hD hn.le))
    rw [mul_assoc, mul_assoc] at h3
    linarith
  · have hj : ∀ j, |P.deriv (sfwDot P (fun c => st.x c + g * (P.lmo (fun c => -sfwEstimate P v st batch d.1 c) st.x st.active).dir c) j) (P.b j) -
        sfwKappa v n * d.1 j| ≤ (sfwErr P v st j - sfwGain P v t * if j ∈ batch then sfwErr P v st j else 0) + l * g * D := by
      intro j
      rw [hx', sfwDot_comb]
      have h1 := hreg.lip (sfwDot P st.x j + g * (sfwDot P s j - sfwDot P st.x j)) (sfwDot P st.x j) (P.b j)
      rw [add_sub_cancel_left, abs_mul, abs_of_nonneg hγ0] at h1
      have h2 : l * (g * |sfwDot P s j - sfwDot P st.x j|) ≤ l * (g * D) :=
        mul_le_mul_of_nonneg_left (mul_le_mul_of_nonneg_left (hreg.diam s hs _ hst.mem j) hγ0) hreg.lip_nonneg
      have h3 := abs_sub_le (P.deriv (sfwDot P st.x j + g * (sfwDot P s j - sfwDot P st.x j)) (P.b j)) (P.deriv (sfwDot P st.x j) (P.b j)) (sfwKappa v n * d.1 j)
      have h4 := hdual j
      linarith
    refine (Finset.sum_le_sum fun j (_ : j ∈ Finset.univ) => hj j).trans ?_
    rw [Finset.sum_add_distrib, Finset.sum_const, Finset.card_univ, Fintype.card_fin, nsmul_eq_mul, hg]

/-- The mean over all batches of one step. -/
theorem sfw_mean_step (hreg : SfwRegular P C phi l D) {v : SfwVariant} (hv : v ≠ .LF) (t : ℕ) (hρ : 0 ≤ sfwGain P v t ∧ sfwGain P v t ≤ 1)
    {st : SfwState ℝ n p V} (hst : SfwInv P C st) {z : Fin p → ℝ} (hz : z ∈ C) :
    ∃ s : (Fin P.batchSize ↪ Fin n) → SfwState ℝ n p V, (∀ e : Fin P.batchSize ↪ Fin n, sfwStep P v t st (List.ofFn e) = .ok (some (s e)) ∧ SfwInv P C (s e)) ∧
      ∑ e, (sfwObj P phi (s e).x - sfwObj P phi z) ≤ Fintype.card (Fin P.batchSize ↪ Fin n) * ((1 - sfwGamma P v t) * (sfwObj P phi st.x - sfwObj P phi z) +
        sfwGamma P v t * (D / n * ((1 + sfwExtra v n * (P.batchSize / n)) * ∑ j, sfwErr P v st j)) + l * sfwGamma P v t ^ 2 * D ^ 2 / 2) ∧
      ∑ e, ∑ j, sfwErr P v (s e) j ≤ Fintype.card (Fin P.batchSize ↪ Fin n) * ((1 - sfwGain P v t * (P.batchSize / n)) * ∑ j, sfwErr P v st j +
        n * (l * sfwGamma P v t * D)) := by
  have hb : ∀ e : Fin P.batchSize ↪ Fin n, (List.ofFn e).Nodup := fun e => List.nodup_ofFn.mpr e.injective
  choose s hs using fun e : Fin P.batchSize ↪ Fin n => sfw_step_batch hreg hv t hρ hst (hb e) hz
  have hmem := sum_embed_mem (b := P.batchSize) hreg.samples (sfwErr P v st)
  set N : ℝ := (Fintype.card (Fin P.batchSize ↪ Fin n) : ℝ) with hN
  have hcard : ∀ r : ℝ, ∑ _e : Fin P.batchSize ↪ Fin n, r = N * r := fun r => by
    rw [Finset.sum_const, Finset.card_univ, nsmul_eq_mul]
  refine ⟨s, fun e => ⟨(hs e).1, (hs e).2.1⟩, ?_, ?_⟩
  · refine (Finset.sum_le_sum fun e _ => (hs e).2.2.1).trans (le_of_eq ?_)
    simp only [Finset.sum_add_distrib, hcard, ← Finset.mul_sum, hmem]
    ring
  · refine (Finset.sum_le_sum fun e _ => (hs e).2.2.2).trans (le_of_eq ?_)
    simp only [Finset.sum_add_distrib, Finset.sum_sub_distrib, hcard, ← Finset.mul_sum, hmem]
    ring

/-! ### Runs -/

/-- Weights under which the objective and the error of the dual variables decrease in the mean. -/
structure SfwWeights (P : SfwArgs ℝ n p V) (v : SfwVariant) (l D : ℝ) (a c : ℕ → ℝ) : Prop where
  a_nonneg : ∀ t, 0 ≤ a t
  c_nonneg : ∀ t, 0 ≤ c t
  gain : ∀ t, 0 ≤ sfwGain P v t ∧ sfwGain P v t ≤ 1
  obj : ∀ t, a (t + 1) * (1 - sfwGamma P v t) = a t
  err : ∀ t, a (t + 1) * (sfwGamma P v t * (D / n * (1 + sfwExtra v n * (P.batchSize / n)))) + c (t + 1) * (1 - sfwGain P v t * (P.batchSize / n)) ≤ c t

theorem sfw_mean_steps (hreg : SfwRegular P C phi l D) {v : SfwVariant} (hv : v ≠ .LF) {a c : ℕ → ℝ} (hw : SfwWeights P v l D a c) (htol : P.tol ≤ 0)
    {z : Fin p → ℝ} (hz : z ∈ C) (suc : Bool) (T : ℕ) : ∀ (t : ℕ) (st : SfwState ℝ n p V), SfwInv P C st →
    ∃ s : (Fin T → (Fin P.batchSize ↪ Fin n)) → SfwState ℝ n p V,
      (∀ ws, sfwInner P v (List.ofFn fun k => List.ofFn (ws k)) ⟨some st, t, suc⟩ = .ok ⟨some (s ws), t + T, suc⟩) ∧ (∀ ws, SfwInv P C (s ws)) ∧
      (∑ ws, (a (t + T) * (sfwObj P phi (s ws).x - sfwObj P phi z) + c (t + T) * ∑ j, sfwErr P v (s ws) j)) /
        (Fintype.card (Fin P.batchSize ↪ Fin n) : ℝ) ^ T ≤
        a t * (sfwObj P phi st.x - sfwObj P phi z) + c t * ∑ j, sfwErr P v st j +
          ∑ i ∈ Finset.range T, (a (t + i + 1) * (l * sfwGamma P v (t + i) ^ 2 * D ^ 2 / 2) + c (t + i + 1) * (n * (l * sfwGamma P v (t + i) * D))) := by
  have hN : (0 : ℝ) < Fintype.card (Fin P.batchSize ↪ Fin n) := by
    have : Nonempty (Fin P.batchSize ↪ Fin n) := ⟨Fin.castLEEmb hreg.batch_le⟩
    exact_mod_cast Fintype.card_pos
  induction T with
  | zero =>
    intro t st hst
    exact ⟨fun _ => st, fun ws => by simp [sfwInner], fun _ => hst, by simp⟩
  | succ T ih =>
    intro t st hst
    obtain ⟨s, h1, h2, h3⟩ := sfw_mean_step hreg hv t (hw.gain t) hst hz
    choose q hq1 hq2 hq3 using fun e => ih (t + 1) (s e) (h1 e).2
    refine ⟨fun ws => q (ws 0) (fun k => ws k.succ), fun ws => ?_, fun ws => hq2 _ _, ?_⟩
    · rw [List.ofFn_succ]
      unfold sfwInner
      simp only [(h1 (ws 0)).1, bind, Except.bind]
      rw [if_neg (not_lt.mpr (htol.trans (Finset.sum_nonneg fun c _ => abs_nonneg _))), hq1 (ws 0), add_right_comm, ← add_assoc]
    · set N : ℝ := (Fintype.card (Fin P.batchSize ↪ Fin n) : ℝ) with hNdef
      have hsplit : ∀ F : (Fin (T + 1) → (Fin P.batchSize ↪ Fin n)) → ℝ, ∑ ws, F ws = ∑ e, ∑ ws : Fin T → (Fin P.batchSize ↪ Fin n), F (Fin.cons e ws) := by
        intro F
        rw [← Fintype.sum_prod_type']
        exact (Fintype.sum_equiv (Fin.consEquiv fun _ => (Fin P.batchSize ↪ Fin n)) _ _ fun _ => rfl).symm
      rw [hsplit]
      simp only [Fin.cons_zero, Fin.cons_succ]
      set R : ℝ := ∑ i ∈ Finset.range T, (a (t + 1 + i + 1) * (l * sfwGamma P v (t + 1 + i) ^ 2 * D ^ 2 / 2) +
        c (t + 1 + i + 1) * (n * (l * sfwGamma P v (t + 1 + i) * D))) with hR
      have hsum : ∑ e, ∑ ws, (a (t + (T + 1)) * (sfwObj P phi (q e ws).x - sfwObj P phi z) + c (t + (T + 1)) * ∑ j, sfwErr P v (q e ws) j) ≤
          ∑ e, N ^ T * (a (t + 1) * (sfwObj P phi (s e).x - sfwObj P phi z) + c (t + 1) * ∑ j, sfwErr P v (s e) j + R) := by
        refine Finset.sum_le_sum fun e _ => ?_
        have := hq3 e
        rw [div_le_iff₀ (by positivity), show t + 1 + T = t + (T + 1) by ring, mul_comm _ (N ^ T)] at this
        exact this
      rw [← Finset.mul_sum, Finset.sum_add_distrib, Finset.sum_add_distrib, ← Finset.mul_sum, ← Finset.mul_sum, Finset.sum_const, Finset.card_univ,
        nsmul_eq_mul, ← hNdef] at hsum
      rw [div_le_iff₀ (by positivity)]
      refine hsum.trans ?_
      rw [Finset.sum_range_succ']
      have hR' : ∑ i ∈ Finset.range T, (a (t + (i + 1) + 1) * (l * sfwGamma P v (t + (i + 1)) ^ 2 * D ^ 2 / 2) +
          c (t + (i + 1) + 1) * (n * (l * sfwGamma P v (t + (i + 1)) * D))) = R :=
        Finset.sum_congr rfl fun i _ => by rw [show t + (i + 1) = t + 1 + i by ring]
      rw [hR', add_zero, pow_succ N T, mul_comm _ (N ^ T * N), mul_assoc (N ^ T) N]
      refine mul_le_mul_of_nonneg_left ?_ (by positivity)
      have k1 := mul_le_mul_of_nonneg_left h2 (hw.a_nonneg (t + 1))
      have k2 := mul_le_mul_of_nonneg_left h3 (hw.c_nonneg (t + 1))
      have hE : 0 ≤ ∑ j, sfwErr P v st j := Finset.sum_nonneg fun j _ => abs_nonneg _
      have k3 := mul_le_mul_of_nonneg_right (hw.err t) hE
      have k4 := mul_le_mul_of_nonneg_left k3 hN.le
      have k5 := hw.obj t
      calc _ ≤ a (t + 1) * (N * ((1 - sfwGamma P v t) * (sfwObj P phi st.x - sfwObj P phi z) +
            sfwGamma P v t * (D / n * ((1 + sfwExtra v n * (P.batchSize / n)) * ∑ j, sfwErr P v st j)) + l * sfwGamma P v t ^ 2 * D ^ 2 / 2)) +
          c (t + 1) * (N * ((1 - sfwGain P v t * (P.batchSize / n)) * ∑ j, sfwErr P v st j + n * (l * sfwGamma P v t * D))) + N * R := by linarith
        _ = N * ((a (t + 1) * (1 - sfwGamma P v t)) * (sfwObj P phi st.x - sfwObj P phi z)) +
            N * ((a (t + 1) * (sfwGamma P v t * (D / n * (1 + sfwExtra v n * (P.batchSize / n)))) + c (t + 1) * (1 - sfwGain P v t * (P.batchSize / n))) *
              ∑ j, sfwErr P v st j) +
            N * (a (t + 1) * (l * sfwGamma P v t ^ 2 * D ^ 2 / 2) + c (t + 1) * (n * (l * sfwGamma P v t * D)) + R) := by ring
        _ ≤ _ := by rw [k5]; linarith

end Copt
