import Verif.Props.AnyOrder
import Verif.Proof.BlockPass
import Verif.Proof.Objects

/-! # SAGA and SVRG with a penalty, for every visiting order (C98, C99)

`np.random.shuffle` visits every sample once per pass (randomized.py:197, 380). No assumption is made on the permutations. -/

set_option linter.unusedSectionVars false

namespace Copt

open Spec

variable {n p : ℕ}

/-- A problem handed to the variance-reduced methods: losses `f` with derivative `P.deriv`, convex and with `M`-Lipschitz derivative; rows of squared norm
at most `R`; convex block penalties `pen` whose proximal operator is `P.prox`; every block touched by at least one in `D` samples. -/
structure PenProblem (P : VRArgs ℝ n p) (pen : Fin P.blocks.nb → (Fin p → ℝ) → ℝ) (f : ℝ → ℝ → ℝ) (M R D : ℝ) : Prop where
  samples : 0 < n
  penalty : IsBlockPenalty P.blocks.ptr pen
  prox : IsBlockProx pen P.prox
  deriv : ∀ t b, HasDerivAt (fun s => f s b) (P.deriv t b) t
  mono : ∀ b, Monotone fun t => P.deriv t b
  nonneg : 0 ≤ M
  lip : ∀ s t b, |P.deriv s b - P.deriv t b| ≤ M * |s - t|
  rows : ∀ i, ∑ c : Fin p, P.A.ent i c ^ 2 ≤ R
  touched : ∀ h, ∃ i, Touches P.A.indptr P.A.indices P.blocks.ptr i h
  often : ∀ h (T : Finset (Fin n)), (∀ i, i ∈ T ↔ Touches P.A.indptr P.A.indices P.blocks.ptr i h) → (n : ℝ) ≤ D * T.card
  alpha : 0 ≤ P.alpha

/-- The objective: mean loss, quadratic regulariser and penalties. -/
noncomputable def vrObj (P : VRArgs ℝ n p) (pen : Fin P.blocks.nb → (Fin p → ℝ) → ℝ) (f : ℝ → ℝ → ℝ) (y : Fin p → ℝ) : ℝ :=
  finiteSum (fun i (c : Fin p) => P.A.ent i c) P.b f P.alpha y + ∑ h, pen h y

section Facts
variable {P : VRArgs ℝ n p} {pen : Fin P.blocks.nb → (Fin p → ℝ) → ℝ} {f : ℝ → ℝ → ℝ} {M R D : ℝ}

theorem PenProblem.row_le (h : PenProblem P pen f M R D) (i : Fin n) : ‖rowV P i‖ ^ 2 ≤ R := by
  rw [norm_euc_sq]; exact h.rows i

theorem PenProblem.R_nonneg (h : PenProblem P pen f M R D) : 0 ≤ R := (sq_nonneg _).trans (h.row_le ⟨0, h.samples⟩)

theorem PenProblem.gi_lip (h : PenProblem P pen f M R D) (i : Fin n) (x y : Fin p → ℝ) :
    |P.gi x i - P.gi y i| * ‖rowV P i‖ ≤ M * R * ‖euc x - euc y‖ := by
  have h1 : |P.gi x i - P.gi y i| ≤ M * (‖rowV P i‖ * ‖euc x - euc y‖) := by
    refine (h.lip _ _ _).trans (mul_le_mul_of_nonneg_left ?_ h.nonneg)
    have h2 : (∑ c : Fin p, P.A.ent i c * x c) - ∑ c : Fin p, P.A.ent i c * y c = inner ℝ (rowV P i) (euc x - euc y) := by
      rw [inner_sub_right, inner_euc, inner_euc]
    rw [h2]
    exact abs_real_inner_le_norm _ _
  calc |P.gi x i - P.gi y i| * ‖rowV P i‖ ≤ M * (‖rowV P i‖ * ‖euc x - euc y‖) * ‖rowV P i‖ := mul_le_mul_of_nonneg_right h1 (norm_nonneg _)
    _ = M * ‖rowV P i‖ ^ 2 * ‖euc x - euc y‖ := by ring
    _ ≤ _ := mul_le_mul_of_nonneg_right (mul_le_mul_of_nonneg_left (h.row_le i) h.nonneg) (norm_nonneg _)

/-- A mean of multiples of the rows. -/
theorem mean_rows_le (hn : 0 < n) (t : Fin n → ℝ) {b : ℝ} (hb : ∀ j, |t j| * ‖rowV P j‖ ≤ b) :
    ‖euc fun c : Fin p => (∑ j, t j * P.A.ent j c) / n‖ ≤ b := by
  have hn' : (0 : ℝ) < n := by exact_mod_cast hn
  have e1 : (euc fun c : Fin p => (∑ j, t j * P.A.ent j c) / n) = (1 / (n : ℝ)) • ∑ j, t j • rowV P j := by
    ext c
    simp only [PiLp.smul_apply, smul_eq_mul, WithLp.ofLp_sum, Finset.sum_apply, WithLp.ofLp_smul, Pi.smul_apply]
    ring
  rw [e1, norm_smul, Real.norm_of_nonneg (by positivity)]
  have : ‖∑ j, t j • rowV P j‖ ≤ n * b := by
    refine (norm_sum_le _ _).trans ?_
    have hle : ∀ j ∈ (Finset.univ : Finset (Fin n)), ‖t j • rowV P j‖ ≤ b := fun j _ => by
      rw [norm_smul, Real.norm_eq_abs]; exact hb j
    refine (Finset.sum_le_sum hle).trans (le_of_eq ?_)
    rw [Finset.sum_const, nsmul_eq_mul, Finset.card_univ, Fintype.card_fin]
  calc 1 / (n : ℝ) * _ ≤ 1 / (n : ℝ) * (n * b) := mul_le_mul_of_nonneg_left this (by positivity)
    _ = _ := by field_simp

theorem PenProblem.grad_lip (h : PenProblem P pen f M R D) (x y : Fin p → ℝ) : ‖gradV P x - gradV P y‖ ≤ (M * R + P.alpha) * ‖euc x - euc y‖ := by
  have e1 : gradV P x - gradV P y = (euc fun c : Fin p => (∑ j, (P.gi x j - P.gi y j) * P.A.ent j c) / n) + P.alpha • (euc x - euc y) := by
    ext c
    simp only [PiLp.sub_apply, PiLp.add_apply, PiLp.smul_apply, smul_eq_mul, finiteSumGrad, VRArgs.gi, sub_mul, Finset.sum_sub_distrib, sub_div]
    ring
  rw [e1, add_mul]
  refine (norm_add_le _ _).trans (add_le_add (mean_rows_le h.samples _ fun j => h.gi_lip j x y) (le_of_eq ?_))
  rw [norm_smul, Real.norm_of_nonneg h.alpha]

theorem grad_inner (P : VRArgs ℝ n p) (x y : Fin p → ℝ) :
    ∑ c, finiteSumGrad (fun i (c : Fin p) => P.A.ent i c) P.b P.deriv P.alpha x c * (y c - x c) =
      (∑ i, P.gi x i * ((∑ c : Fin p, P.A.ent i c * y c) - ∑ c : Fin p, P.A.ent i c * x c)) / n + P.alpha * ∑ c, x c * (y c - x c) := by
  unfold finiteSumGrad
  simp only [add_mul]
  rw [Finset.sum_add_distrib]
  congr 1
  · simp only [← Finset.sum_sub_distrib, Finset.sum_div, Finset.sum_mul, Finset.mul_sum, VRArgs.gi]
    rw [Finset.sum_comm]
    refine Finset.sum_congr rfl fun c _ => Finset.sum_congr rfl fun i _ => ?_
    ring
  · rw [Finset.mul_sum]
    exact Finset.sum_congr rfl fun c _ => by ring

theorem PenProblem.conv (h : PenProblem P pen f M R D) (x y : Fin p → ℝ) :
    finiteSum (fun i (c : Fin p) => P.A.ent i c) P.b f P.alpha x +
      ∑ c, finiteSumGrad (fun i (c : Fin p) => P.A.ent i c) P.b P.deriv P.alpha x c * (y c - x c) + P.alpha / 2 * ‖euc y - euc x‖ ^ 2 ≤
      finiteSum (fun i (c : Fin p) => P.A.ent i c) P.b f P.alpha y := by
  have e1 : ‖euc y - euc x‖ ^ 2 = ∑ c, (y c - x c) ^ 2 := norm_euc_sq fun c => y c - x c
  rw [grad_inner, e1]
  unfold finiteSum
  have h3 : (∑ i, f (∑ c : Fin p, P.A.ent i c * x c) (P.b i)) / (n : ℝ) + (∑ i, P.gi x i *
      ((∑ c : Fin p, P.A.ent i c * y c) - ∑ c : Fin p, P.A.ent i c * x c)) / (n : ℝ) ≤ (∑ i, f (∑ c : Fin p, P.A.ent i c * y c) (P.b i)) / (n : ℝ) := by
    rw [← add_div, ← Finset.sum_add_distrib]
    exact div_le_div_of_nonneg_right (Finset.sum_le_sum fun i _ => convex_1d (fun t => h.deriv t (P.b i)) (h.mono (P.b i)) _ _) (Nat.cast_nonneg n)
  have h4 : P.alpha / 2 * ∑ c, x c ^ 2 + P.alpha * ∑ c, x c * (y c - x c) + P.alpha / 2 * ∑ c, (y c - x c) ^ 2 = P.alpha / 2 * ∑ c, y c ^ 2 := by
    rw [Finset.mul_sum, Finset.mul_sum, Finset.mul_sum, Finset.mul_sum, ← Finset.sum_add_distrib, ← Finset.sum_add_distrib]
    exact Finset.sum_congr rfl fun c _ => by ring
  linarith

theorem PenProblem.smooth (h : PenProblem P pen f M R D) (x y : Fin p → ℝ) :
    finiteSum (fun i (c : Fin p) => P.A.ent i c) P.b f P.alpha y ≤ finiteSum (fun i (c : Fin p) => P.A.ent i c) P.b f P.alpha x +
      ∑ c, finiteSumGrad (fun i (c : Fin p) => P.A.ent i c) P.b P.deriv P.alpha x c * (y c - x c) + (M * R + P.alpha) / 2 * ‖euc y - euc x‖ ^ 2 := by
  have hn : (0 : ℝ) < n := by exact_mod_cast h.samples
  have e1 : ‖euc y - euc x‖ ^ 2 = ∑ c, (y c - x c) ^ 2 := norm_euc_sq fun c => y c - x c
  rw [grad_inner]
  unfold finiteSum
  have hrow : ∀ i, ((∑ c : Fin p, P.A.ent i c * y c) - ∑ c : Fin p, P.A.ent i c * x c) ^ 2 ≤ R * ‖euc y - euc x‖ ^ 2 := by
    intro i
    have h2 : (∑ c : Fin p, P.A.ent i c * y c) - ∑ c : Fin p, P.A.ent i c * x c = inner ℝ (rowV P i) (euc y - euc x) := by
      rw [inner_sub_right, inner_euc, inner_euc]
    rw [h2, ← sq_abs]
    calc |inner ℝ (rowV P i) (euc y - euc x)| ^ 2 ≤ (‖rowV P i‖ * ‖euc y - euc x‖) ^ 2 := pow_le_pow_left₀ (abs_nonneg _) (abs_real_inner_le_norm _ _) 2
      _ = ‖rowV P i‖ ^ 2 * ‖euc y - euc x‖ ^ 2 := mul_pow _ _ _
      _ ≤ _ := mul_le_mul_of_nonneg_right (h.row_le i) (sq_nonneg _)
  have h3 : (∑ i, f (∑ c : Fin p, P.A.ent i c * y c) (P.b i)) / (n : ℝ) ≤ (∑ i, f (∑ c : Fin p, P.A.ent i c * x c) (P.b i)) / (n : ℝ) + (∑ i, P.gi x i *
      ((∑ c : Fin p, P.A.ent i c * y c) - ∑ c : Fin p, P.A.ent i c * x c)) / (n : ℝ) + M * R / 2 * ‖euc y - euc x‖ ^ 2 := by
    have : M * R / 2 * ‖euc y - euc x‖ ^ 2 = (∑ _i : Fin n, M / 2 * (R * ‖euc y - euc x‖ ^ 2)) / (n : ℝ) := by
      rw [Finset.sum_const, nsmul_eq_mul, Finset.card_univ, Fintype.card_fin]; field_simp
    rw [this, ← add_div, ← add_div, ← Finset.sum_add_distrib, ← Finset.sum_add_distrib]
    refine div_le_div_of_nonneg_right (Finset.sum_le_sum fun i _ => ?_) (Nat.cast_nonneg n)
    have q := quad_upper_1d (fun t => h.deriv t (P.b i)) (fun s t => h.lip s t (P.b i)) (∑ c : Fin p, P.A.ent i c * x c) (∑ c : Fin p, P.A.ent i c * y c)
    refine q.trans (add_le_add le_rfl (mul_le_mul_of_nonneg_left (hrow i) (by linarith [h.nonneg])))
  have h4 : P.alpha / 2 * ∑ c, x c ^ 2 + P.alpha * ∑ c, x c * (y c - x c) + P.alpha / 2 * ‖euc y - euc x‖ ^ 2 = P.alpha / 2 * ∑ c, y c ^ 2 := by
    rw [e1, Finset.mul_sum, Finset.mul_sum, Finset.mul_sum, Finset.mul_sum, ← Finset.sum_add_distrib, ← Finset.sum_add_distrib]
    exact Finset.sum_congr rfl fun c _ => by ring
  linarith

/-- The weight of a block. -/
noncomputable def blockW (P : VRArgs ℝ n p) (h : Fin P.blocks.nb) : ℝ := (n : ℝ) / touchCount P.A P.blocks.ptr h

theorem PenProblem.count_pos (hq : PenProblem P pen f M R D) (h : Fin P.blocks.nb) : 0 < touchCount P.A P.blocks.ptr h := by
  classical
  obtain ⟨i, hi⟩ := hq.touched h
  unfold touchCount
  exact Finset.card_pos.mpr ⟨i, by simpa using hi⟩

theorem PenProblem.weight_one (hq : PenProblem P pen f M R D) (h : Fin P.blocks.nb) : 1 ≤ blockW P h := by
  classical
  have hpos : (0 : ℝ) < touchCount P.A P.blocks.ptr h := by exact_mod_cast hq.count_pos h
  unfold blockW
  rw [le_div_iff₀ hpos, one_mul]
  have : touchCount P.A P.blocks.ptr h ≤ n := by
    unfold touchCount
    exact (Finset.card_le_univ _).trans (by simp)
  exact_mod_cast this

theorem PenProblem.weight_le (hq : PenProblem P pen f M R D) (h : Fin P.blocks.nb) : blockW P h ≤ D := by
  classical
  have hpos : (0 : ℝ) < touchCount P.A P.blocks.ptr h := by exact_mod_cast hq.count_pos h
  have h1 := hq.often h (Finset.univ.filter fun i => Touches P.A.indptr P.A.indices P.blocks.ptr i h) (fun i => by simp)
  unfold blockW
  rw [div_le_iff₀ hpos]
  refine h1.trans (le_of_eq ?_)
  unfold touchCount
  congr

theorem PenProblem.D_one (hq : PenProblem P pen f M R D) (hP : P.Good) (hp : 0 < p) : 1 ≤ D :=
  (hq.weight_one (hP.blocks.of ⟨0, hp⟩)).trans (hq.weight_le _)

/-- The proximal step of the blocks of a sample: what the condition of the proximal point says for each block. -/
theorem prox_step_sub (hq : PenProblem P pen f M R D) (hP : P.Good) {S : Support n P.blocks.nb} (hok : SupportOk P.A hP.blocks S) {step : ℝ}
    (hstep : 0 < step) (i : Fin n) {hs : List ℕ} (hr : S.row i = some hs) (x v u : Fin p → ℝ)
    (hv : ∀ c, Near P.A hP.blocks i c → v c = x c - step * (blockWeight P.A hP.blocks c * u c)) (hv2 : ∀ c, ¬Near P.A hP.blocks i c → v c = x c) :
    ∃ z, P.prox _ (supWeights n S.bs) step hs v = some z ∧ (∀ c, ¬Near P.A hP.blocks i c → z c = x c) ∧
      ∀ h : Fin P.blocks.nb, Touches P.A.indptr P.A.indices P.blocks.ptr i h → ∀ y : Fin p → ℝ,
        pen h z + ∑ c, (if hP.blocks.of c = h then ((x c - z c) / (step * blockW P h) - u c) * (y c - z c) else 0) ≤ pen h y := by
  obtain ⟨hs', hr', hnd, hlt, hmemb⟩ := hok.row i
  rw [hr] at hr'
  obtain rfl := Option.some.inj hr'
  have hwd := listed_lt_width hok hlt hmemb
  obtain ⟨z, hz, hzp⟩ := hq.prox _ (supWeights n S.bs) step hs v (supWeights_nonneg n S.bs) hstep.le hnd (fun h hh => ⟨hlt h hh, hwd h hh⟩)
  have hiff := (isProx_listed_iff hP.blocks hq.penalty (w := getD0 (supWeights n S.bs : Fin (supWidth S.bs) → ℝ)) (hs := hs)
    (fun h hh => by rw [getD0_lt _ (hwd h hh)]; exact supWeights_nonneg n S.bs _) hstep.le v z).mp hzp
  refine ⟨z, hz, fun c hc => ?_, fun h ht y => ?_⟩
  · rw [hiff.1 c (fun hh => hc ((hmemb _).mp hh)), hv2 c hc]
  · have hin : h.val ∈ hs := (hmemb h).mpr ht
    have h1 := hiff.2 h hin y
    have hw : getD0 (supWeights n S.bs : Fin (supWidth S.bs) → ℝ) h.val = blockW P h := by
      have h2 := hok.weight ht
      rw [rd_eq_getD0 _ (hwd _ hin)] at h2
      exact Option.some.inj h2.2
    rw [hw] at h1
    have hw0 : 0 < blockW P h := zero_lt_one.trans_le (hq.weight_one h)
    have hsw : 0 < step * blockW P h := mul_pos hstep hw0
    have h3 : (∑ c, if hP.blocks.of c = h then (v c - z c) * (y c - z c) else 0) =
        step * blockW P h * ∑ c, if hP.blocks.of c = h then ((x c - z c) / (step * blockW P h) - u c) * (y c - z c) else 0 := by
      rw [Finset.mul_sum]
      refine Finset.sum_congr rfl fun c _ => ?_
      by_cases hc : hP.blocks.of c = h
      · have hnear : Near P.A hP.blocks i c := by show Touches _ _ _ _ _; rw [hc]; exact ht
        have hbw : blockWeight P.A hP.blocks c = blockW P h := by unfold blockWeight blockW; rw [hc]
        rw [if_pos hc, if_pos hc, hv c hnear, hbw]
        field_simp
        ring
      · rw [if_neg hc, if_neg hc, mul_zero]
    rw [h3] at h1
    refine le_of_mul_le_mul_left ?_ hsw
    linarith

end Facts

section Pass
variable {P : VRArgs ℝ n p} {pen : Fin P.blocks.nb → (Fin p → ℝ) → ℝ} {f : ℝ → ℝ → ℝ} {M R D : ℝ}

/-- The data term and its gradient. -/
noncomputable abbrev vrF (P : VRArgs ℝ n p) (f : ℝ → ℝ → ℝ) : (Fin p → ℝ) → ℝ := finiteSum (fun i (c : Fin p) => P.A.ent i c) P.b f P.alpha

/-- The gradient of the data term. -/
noncomputable abbrev vrG (P : VRArgs ℝ n p) : (Fin p → ℝ) → Fin p → ℝ := finiteSumGrad (fun i (c : Fin p) => P.A.ent i c) P.b P.deriv P.alpha

/-- Masking coordinates and dividing by weights at least one does not increase the norm. -/
theorem norm_damp_le (w v : Fin p → ℝ) (hw : ∀ c, |w c| ≤ 1) : ‖euc fun c => w c * v c‖ ≤ ‖euc v‖ := by
  have := norm_scale_le w v hw zero_le_one
  rwa [one_mul] at this

/-- The error of a direction made of a mean of memorised derivatives and a correction for one sample. -/
theorem dir_err_le (hq : PenProblem P pen f M R D) (hP : P.Good) (x : Fin p → ℝ) (mem : Fin n → ℝ) (avg : Fin p → ℝ) (i : Fin n)
    (havg : ∀ c : Fin p, avg c = (∑ j, mem j * P.A.ent j c) / (n : ℝ)) {b : ℝ} (hb : ∀ j, |mem j - P.gi x j| * ‖rowV P j‖ ≤ b) (T : Fin P.blocks.nb → Prop)
    [DecidablePred T] : ‖euc fun c : Fin p => if T (hP.blocks.of c) then
      (avg c + P.alpha * x c + (P.gi x i - mem i) * P.A.ent i c / blockW P (hP.blocks.of c)) - vrG P x c else 0‖ ≤ 2 * b := by
  let v1 : Fin p → ℝ := fun c => (∑ j, (mem j - P.gi x j) * P.A.ent j c) / n
  let v2 : Fin p → ℝ := fun c => (P.gi x i - mem i) * P.A.ent i c
  let w1 : Fin p → ℝ := fun c => if T (hP.blocks.of c) then 1 else 0
  let w2 : Fin p → ℝ := fun c => if T (hP.blocks.of c) then 1 / blockW P (hP.blocks.of c) else 0
  have hw1 : ∀ c, |w1 c| ≤ 1 := fun c => by simp only [w1]; split <;> simp
  have hw2 : ∀ c, |w2 c| ≤ 1 := fun c => by
    simp only [w2]
    split
    · have := hq.weight_one (hP.blocks.of c)
      rw [abs_of_nonneg (by positivity), div_le_one (by linarith)]
      exact this
    · simp
  have e : (euc fun c : Fin p => if T (hP.blocks.of c) then
      (avg c + P.alpha * x c + (P.gi x i - mem i) * P.A.ent i c / blockW P (hP.blocks.of c)) - vrG P x c else 0) =
      (euc fun c => w1 c * v1 c) + euc fun c => w2 c * v2 c := by
    ext c
    simp only [PiLp.add_apply, w1, w2, v1, v2]
    by_cases hT : T (hP.blocks.of c)
    · simp only [if_pos hT, havg c, finiteSumGrad, sub_mul, Finset.sum_sub_distrib, sub_div, VRArgs.gi]; ring
    · simp only [if_neg hT]; ring
  rw [e]
  refine (norm_add_le _ _).trans ?_
  have b1 : ‖euc fun c => w1 c * v1 c‖ ≤ b := (norm_damp_le _ _ hw1).trans (mean_rows_le hq.samples _ hb)
  have b2 : ‖euc fun c => w2 c * v2 c‖ ≤ b := by
    refine (norm_damp_le _ _ hw2).trans ?_
    have : euc v2 = (P.gi x i - mem i) • rowV P i := rfl
    rw [this, norm_smul, Real.norm_eq_abs, abs_sub_comm]
    exact hb i
  linarith

/-- A pass of SAGA from a state whose memory is off by at most `M R Wp + m`: it returns, it is a `BlockPass`, the errors are bounded, every block moves and
the memory left behind is off by at most `M R` times the movements of the pass. -/
theorem saga_blockPass (hq : PenProblem P pen f M R D) (hP : P.Good) {S : Support n P.blocks.nb} (hok : SupportOk P.A hP.blocks S) {step : ℝ}
    (hstep : 0 < step) (st : SagaState ℝ n p) (hcl : SagaClean P st) {Wp m : ℝ} (hWp : 0 ≤ Wp)
    (herr : ∀ j, |st.mem j - P.gi st.x j| * ‖rowV P j‖ ≤ M * R * Wp + m) (hm : 0 ≤ m) {idx : List ℕ} (hidx : idx.Perm (List.range n)) :
    ∃ (st' : SagaState ℝ n p) (x u : ℕ → Fin p → ℝ) (T : ℕ → Fin P.blocks.nb → Prop), sagaEpoch P S step st idx = some st' ∧ SagaClean P st' ∧
      x 0 = st.x ∧ x n = st'.x ∧ BlockPass hP.blocks.of (vrF P f) (vrG P) pen (M * R + P.alpha) step D (blockW P) n x u T ∧
      (∀ h, ∃ k < n, T k h) ∧
      (∀ k < n, ‖euc (passErr hP.blocks.of (vrG P) x u T k)‖ ≤ 2 * (M * R + P.alpha) * (Wp + ∑ j ∈ Finset.range k, move x j) + 2 * m) ∧
      ∀ j, |st'.mem j - P.gi st'.x j| * ‖rowV P j‖ ≤ M * R * ∑ j ∈ Finset.range n, move x j := by
  classical
  have hMR : 0 ≤ M * R := mul_nonneg hq.nonneg hq.R_nonneg
  have hlen : idx.length = n := by simpa using hidx.length_eq
  have hnd : idx.Nodup := hidx.nodup_iff.mpr List.nodup_range
  have hlt : ∀ i ∈ idx, i < n := fun i hi => List.mem_range.mp (hidx.subset hi)
  -- one step
  have hone : ∀ (s : SagaState ℝ n p), SagaClean P s → ∀ i : Fin n, ∃ s', sagaStep P S step s i = some s' ∧ SagaClean P s' ∧
      s'.mem = Function.update s.mem i (P.gi s.x i) ∧ (∀ c, ¬Near P.A hP.blocks i c → s'.x c = s.x c) ∧
      ∀ h : Fin P.blocks.nb, Touches P.A.indptr P.A.indices P.blocks.ptr i h → ∀ y : Fin p → ℝ,
        pen h s'.x + ∑ c, (if hP.blocks.of c = h then ((s.x c - s'.x c) / (step * blockW P h) -
          (s.avg c + P.alpha * s.x c + (P.gi s.x i - s.mem i) * P.A.ent i c / blockW P (hP.blocks.of c))) * (y c - s'.x c) else 0) ≤ pen h y := by
    intro s hs i
    obtain ⟨hs', hr, h1⟩ := sagaStep_spec P hP hok step s hs.tmp i
    obtain ⟨z, hz, hz1, hz2⟩ := prox_step_sub hq hP hok hstep i hr s.x (sagaMid P hP step s i)
      (fun c => s.avg c + P.alpha * s.x c + (P.gi s.x i - s.mem i) * P.A.ent i c / blockW P (hP.blocks.of c)) (fun c hc => by
        have hw0 : blockW P (hP.blocks.of c) ≠ 0 := (zero_lt_one.trans_le (hq.weight_one _)).ne'
        have hbw : blockWeight P.A hP.blocks c = blockW P (hP.blocks.of c) := rfl
        unfold sagaMid
        rw [if_pos hc, hbw]
        field_simp
        ring) (fun c hc => by unfold sagaMid; rw [if_neg hc])
    rw [hz] at h1
    refine ⟨_, h1, ⟨fun c => ?_, rfl⟩, rfl, hz1, hz2⟩
    show s.avg c + (P.gi s.x i - s.mem i) * P.A.ent i c / (n : ℝ) = (∑ j, Function.update s.mem i (P.gi s.x i) j * P.A.ent j c) / (n : ℝ)
    rw [hs.avg c, ← add_div]
    congr 1
    have e1 : ∀ j, Function.update s.mem i (P.gi s.x i) j * P.A.ent j c = s.mem j * P.A.ent j c +
        if j = i then (P.gi s.x i - s.mem i) * P.A.ent i c else 0 := by
      intro j
      by_cases hj : j = i
      · subst hj; simp; ring
      · simp [hj]
    rw [Finset.sum_congr rfl fun j _ => e1 j, Finset.sum_add_distrib]
    simp
  -- the pass returns
  have htotal : ∀ (l : List ℕ) (s : SagaState ℝ n p), SagaClean P s → (∀ i ∈ l, i < n) → ∃ s', sagaEpoch P S step s l = some s' := by
    intro l
    induction l with
    | nil => intro s _ _; exact ⟨s, rfl⟩
    | cons i l ih =>
      intro s hs hi
      obtain ⟨s2, h2, hc2, -⟩ := hone s hs ⟨i, hi i (by simp)⟩
      obtain ⟨s3, h3⟩ := ih s2 hc2 (fun j hj => hi j (by simp [hj]))
      refine ⟨s3, ?_⟩
      unfold sagaEpoch at h3 ⊢
      rw [List.foldlM_cons, h2]
      exact h3
  obtain ⟨st', hrun⟩ := htotal idx st hcl hlt
  obtain ⟨sts, h0, hend, hsteps⟩ := foldlM_trace _ idx st st' hrun
  have hmem : ∀ k (hk : k < idx.length), idx[k] < n := fun k hk => hlt _ (List.getElem_mem hk)
  have hinv : ∀ k ≤ n, SagaClean P (sts k) ∧ (∀ j : Fin n, j.val ∉ idx.take k → (sts k).mem j = st.mem j) ∧
      ∀ j : Fin n, j.val ∈ idx.take k → ∃ t < k, (sts k).mem j = P.gi (sts t).x j := by
    intro k
    induction k with
    | zero => intro _; rw [h0]; exact ⟨hcl, fun _ _ => rfl, fun j hj => by simp at hj⟩
    | succ k ih =>
      intro hk
      obtain ⟨i1, i2, i3⟩ := ih (by omega)
      have hk' : k < idx.length := by omega
      obtain ⟨s2, hs2, hc2, hm2, -⟩ := hone (sts k) i1 ⟨idx[k], hmem k hk'⟩
      have := hsteps k hk'
      rw [hs2] at this
      obtain rfl := Option.some.inj this
      have htake : ∀ j, j ∈ idx.take (k + 1) ↔ j ∈ idx.take k ∨ j = idx[k] := by
        intro j; rw [List.take_succ_eq_append_getElem hk', List.mem_append, List.mem_singleton]
      refine ⟨hc2, fun j hj => ?_, fun j hj => ?_⟩
      · rw [htake] at hj
        push Not at hj
        rw [hm2, Function.update_of_ne (fun hh => hj.2 (by rw [hh])), i2 j hj.1]
      · rw [htake] at hj
        by_cases hji : j = ⟨idx[k], hmem k hk'⟩
        · refine ⟨k, by omega, ?_⟩
          rw [hm2, hji, Function.update_self]
        · rcases hj with hj | hj
          · obtain ⟨t, ht, he⟩ := i3 j hj
            exact ⟨t, by omega, by rw [hm2, Function.update_of_ne hji, he]⟩
          · exact absurd (Fin.ext hj) hji
  have hl : sts n = st' := hlen ▸ hend
  let x : ℕ → Fin p → ℝ := fun k => (sts k).x
  let samp : ℕ → Fin n := fun k => if hi : idx.getD k 0 < n then ⟨idx.getD k 0, hi⟩ else ⟨0, hq.samples⟩
  have hsamp : ∀ k (hk : k < idx.length), samp k = ⟨idx[k], hmem k hk⟩ := by
    intro k hk
    have hget : idx.getD k 0 = idx[k] := by simp [hk]
    simp only [samp, hget, hmem k hk, dif_pos]
  let u : ℕ → Fin p → ℝ := fun k c => (sts k).avg c + P.alpha * (sts k).x c +
    (P.gi (sts k).x (samp k) - (sts k).mem (samp k)) * P.A.ent (samp k) c / blockW P (hP.blocks.of c)
  let T : ℕ → Fin P.blocks.nb → Prop := fun k h => Touches P.A.indptr P.A.indices P.blocks.ptr (samp k) h
  have hstepk : ∀ k < n, (∀ c, ¬T k (hP.blocks.of c) → x (k + 1) c = x k c) ∧ ∀ h, T k h → ∀ y : Fin p → ℝ,
      pen h (x (k + 1)) + ∑ c, (if hP.blocks.of c = h then ((x k c - x (k + 1) c) / (step * blockW P h) - u k c) * (y c - x (k + 1) c) else 0) ≤
        pen h y := by
    intro k hk
    have hk' : k < idx.length := by omega
    obtain ⟨s2, hs2, -, -, hx1, hx2⟩ := hone (sts k) (hinv k hk.le).1 ⟨idx[k], hmem k hk'⟩
    have := hsteps k hk'
    rw [hs2] at this
    obtain rfl := Option.some.inj this
    simp only [T, u, hsamp k hk']
    exact ⟨hx1, hx2⟩
  -- the memory along the pass
  have hstale : ∀ k ≤ n, ∀ j, |(sts k).mem j - P.gi (sts k).x j| * ‖rowV P j‖ ≤ M * R * (Wp + ∑ i ∈ Finset.range k, move x i) + m := by
    intro k hk j
    obtain ⟨-, i2, i3⟩ := hinv k hk
    have hdist : ∀ t ≤ k, ‖euc (sts t).x - euc (sts k).x‖ ≤ ∑ i ∈ Finset.range k, move x i := by
      intro t ht
      rw [norm_sub_rev]
      exact (dist_le_moves x ht).trans (moves_mono x le_rfl)
    by_cases hj : j.val ∈ idx.take k
    · obtain ⟨t, ht, he⟩ := i3 j hj
      rw [he]
      have := (hq.gi_lip j (sts t).x (sts k).x).trans (mul_le_mul_of_nonneg_left (hdist t ht.le) hMR)
      have := mul_nonneg hMR hWp
      linarith
    · rw [i2 j hj]
      have e1 : |st.mem j - P.gi (sts k).x j| ≤ |st.mem j - P.gi st.x j| + |P.gi st.x j - P.gi (sts k).x j| := abs_sub_le _ _ _
      have e2 := mul_le_mul_of_nonneg_right e1 (norm_nonneg (rowV P j))
      have e3 := (hq.gi_lip j (sts 0).x (sts k).x).trans (mul_le_mul_of_nonneg_left (hdist 0 (by omega)) hMR)
      rw [h0] at e3
      have := herr j
      linarith
  refine ⟨st', x, u, T, hrun, hl ▸ (hinv n le_rfl).1, by simp [x, h0], by simp [x, hl], ?_, ?_, ?_, ?_⟩
  · exact { step_pos := hstep, weight_one := hq.weight_one, weight_le := hq.weight_le,
            conv := fun y z => by
              have := hq.conv y z
              have := mul_nonneg (by linarith [hq.alpha] : 0 ≤ P.alpha / 2) (sq_nonneg ‖euc z - euc y‖)
              linarith
            smooth := hq.smooth, lip := hq.grad_lip,
            loc := fun h y z hyz => hq.penalty.loc h y z fun c hc => hyz c (hP.blocks.of_eq hc),
            keep := fun k hk => (hstepk k hk).1, sub := fun k hk => (hstepk k hk).2 }
  · intro h
    obtain ⟨i, hi⟩ := hq.touched h
    obtain ⟨k, hk, he⟩ := List.getElem_of_mem (hidx.symm.subset (List.mem_range.mpr i.isLt))
    refine ⟨k, by omega, ?_⟩
    simp only [T, hsamp k hk]
    have : (⟨idx[k], hmem k hk⟩ : Fin n) = i := Fin.ext he
    rw [this]; exact hi
  · intro k hk
    have h1 := dir_err_le hq hP (sts k).x (sts k).mem (sts k).avg (samp k) (hinv k hk.le).1.avg (hstale k hk.le) (T k)
    have h2 : euc (passErr hP.blocks.of (vrG P) x u T k) = euc fun c : Fin p => if T k (hP.blocks.of c) then
      ((sts k).avg c + P.alpha * (sts k).x c + (P.gi (sts k).x (samp k) - (sts k).mem (samp k)) * P.A.ent (samp k) c / blockW P (hP.blocks.of c)) -
        vrG P (sts k).x c else 0 := rfl
    rw [h2]
    refine h1.trans ?_
    have hS : 0 ≤ ∑ j ∈ Finset.range k, move x j := Finset.sum_nonneg fun _ _ => norm_nonneg _
    have := mul_nonneg hq.alpha (add_nonneg hWp hS)
    nlinarith
  · intro j
    obtain ⟨-, -, i3⟩ := hinv n le_rfl
    have hfull : idx.take n = idx := by rw [← hlen]; exact List.take_length
    rw [hfull, hl] at i3
    obtain ⟨t, ht, hj⟩ := i3 j (hidx.symm.subset (List.mem_range.mpr j.isLt))
    rw [hj]
    refine (hq.gi_lip j _ _).trans (mul_le_mul_of_nonneg_left ?_ hMR)
    rw [norm_sub_rev, ← hl]
    exact (dist_le_moves x ht.le).trans (moves_mono x le_rfl)

end Pass

section SvrgPass
variable {P : VRArgs ℝ n p} {pen : Fin P.blocks.nb → (Fin p → ℝ) → ℝ} {f : ℝ → ℝ → ℝ} {M R D : ℝ}

/-- A pass of SVRG, when every sample stores all the features of the blocks it touches. -/
theorem svrg_blockPass (hq : PenProblem P pen f M R D) (hP : P.Good) (hfull : FullBlocks P) {S : Support n P.blocks.nb} (hok : SupportOk P.A hP.blocks S)
    {step : ℝ} (hstep : 0 < step) (st : SvrgState ℝ p) {idx : List ℕ} (hidx : idx.Perm (List.range n)) :
    ∃ (avg : Fin p → ℝ) (st' : SvrgState ℝ p) (x u : ℕ → Fin p → ℝ) (T : ℕ → Fin P.blocks.nb → Prop), fullGrad P st.x = some avg ∧
      svrgEpoch P S step st.x avg st idx = some st' ∧
      x 0 = st.x ∧ x n = st'.x ∧ BlockPass hP.blocks.of (vrF P f) (vrG P) pen (M * R + P.alpha) step D (blockW P) n x u T ∧
      (∀ h, ∃ k < n, T k h) ∧
      ∀ k < n, ‖euc (passErr hP.blocks.of (vrG P) x u T k)‖ ≤ 2 * (M * R + P.alpha) * (0 + ∑ j ∈ Finset.range k, move x j) := by
  classical
  have hMR : 0 ≤ M * R := mul_nonneg hq.nonneg hq.R_nonneg
  have hlen : idx.length = n := by simpa using hidx.length_eq
  have hlt : ∀ i ∈ idx, i < n := fun i hi => List.mem_range.mp (hidx.subset hi)
  obtain ⟨avg, havg⟩ : ∃ avg, fullGrad P st.x = some avg := ⟨_, fullGrad_spec P hP.csr st.x⟩
  have havg' : ∀ c : Fin p, avg c = (∑ i, P.gi st.x i * P.A.ent i c) / (n : ℝ) := fun c => by
    have := havg
    rw [fullGrad_spec P hP.csr st.x] at this
    rw [← Option.some.inj this]
  have hone : ∀ (s : SvrgState ℝ p) (i : Fin n), ∃ s', svrgStep P S step st.x avg s i = some s' ∧ (∀ c, ¬Near P.A hP.blocks i c → s'.x c = s.x c) ∧
      ∀ h : Fin P.blocks.nb, Touches P.A.indptr P.A.indices P.blocks.ptr i h → ∀ y : Fin p → ℝ,
        pen h s'.x + ∑ c, (if hP.blocks.of c = h then ((s.x c - s'.x c) / (step * blockW P h) -
          (avg c + P.alpha * s.x c + (P.gi s.x i - P.gi st.x i) * P.A.ent i c / blockW P (hP.blocks.of c))) * (y c - s'.x c) else 0) ≤ pen h y := by
    intro s i
    obtain ⟨hs', hr, tmp, mid, h0, h1, h2, h3⟩ := svrgStep_spec P hP hok step st.x avg s i
    obtain ⟨z, hz, hz1, hz2⟩ := prox_step_sub hq hP hok hstep i hr s.x mid
      (fun c => avg c + P.alpha * s.x c + (P.gi s.x i - P.gi st.x i) * P.A.ent i c / blockW P (hP.blocks.of c)) (fun c hc => by
        have hw0 : blockW P (hP.blocks.of c) ≠ 0 := (zero_lt_one.trans_le (hq.weight_one _)).ne'
        have hbw : blockWeight P.A hP.blocks c = blockW P (hP.blocks.of c) := rfl
        rw [h2 c hc, h1 c, if_pos (hfull i _ c (hP.blocks.of_spec c) hc), hbw]
        field_simp
        ring) h3
    rw [hz] at h0
    exact ⟨_, h0, hz1, hz2⟩
  have htotal : ∀ (l : List ℕ) (s : SvrgState ℝ p), (∀ i ∈ l, i < n) → ∃ s', svrgEpoch P S step st.x avg s l = some s' := by
    intro l
    induction l with
    | nil => intro s _; exact ⟨s, rfl⟩
    | cons i l ih =>
      intro s hi
      obtain ⟨s2, h2, -⟩ := hone s ⟨i, hi i (by simp)⟩
      obtain ⟨s3, h3⟩ := ih s2 (fun j hj => hi j (by simp [hj]))
      refine ⟨s3, ?_⟩
      unfold svrgEpoch at h3 ⊢
      rw [List.foldlM_cons, h2]
      exact h3
  obtain ⟨st', hrun⟩ := htotal idx st hlt
  obtain ⟨sts, h0, hend, hsteps⟩ := foldlM_trace _ idx st st' hrun
  have hmem : ∀ k (hk : k < idx.length), idx[k] < n := fun k hk => hlt _ (List.getElem_mem hk)
  have hl : sts n = st' := hlen ▸ hend
  let x : ℕ → Fin p → ℝ := fun k => (sts k).x
  let samp : ℕ → Fin n := fun k => if hi : idx.getD k 0 < n then ⟨idx.getD k 0, hi⟩ else ⟨0, hq.samples⟩
  have hsamp : ∀ k (hk : k < idx.length), samp k = ⟨idx[k], hmem k hk⟩ := by
    intro k hk
    have hget : idx.getD k 0 = idx[k] := by simp [hk]
    simp only [samp, hget, hmem k hk, dif_pos]
  let u : ℕ → Fin p → ℝ := fun k c => avg c + P.alpha * (sts k).x c +
    (P.gi (sts k).x (samp k) - P.gi st.x (samp k)) * P.A.ent (samp k) c / blockW P (hP.blocks.of c)
  let T : ℕ → Fin P.blocks.nb → Prop := fun k h => Touches P.A.indptr P.A.indices P.blocks.ptr (samp k) h
  have hstepk : ∀ k < n, (∀ c, ¬T k (hP.blocks.of c) → x (k + 1) c = x k c) ∧ ∀ h, T k h → ∀ y : Fin p → ℝ,
      pen h (x (k + 1)) + ∑ c, (if hP.blocks.of c = h then ((x k c - x (k + 1) c) / (step * blockW P h) - u k c) * (y c - x (k + 1) c) else 0) ≤
        pen h y := by
    intro k hk
    have hk' : k < idx.length := by omega
    obtain ⟨s2, hs2, hx1, hx2⟩ := hone (sts k) ⟨idx[k], hmem k hk'⟩
    have := hsteps k hk'
    rw [hs2] at this
    obtain rfl := Option.some.inj this
    simp only [T, u, hsamp k hk']
    exact ⟨hx1, hx2⟩
  refine ⟨avg, st', x, u, T, havg, hrun, by simp [x, h0], by simp [x, hl], ?_, ?_, ?_⟩
  · exact { step_pos := hstep, weight_one := hq.weight_one, weight_le := hq.weight_le,
            conv := fun y z => by
              have := hq.conv y z
              have := mul_nonneg (by linarith [hq.alpha] : 0 ≤ P.alpha / 2) (sq_nonneg ‖euc z - euc y‖)
              linarith
            smooth := hq.smooth, lip := hq.grad_lip,
            loc := fun h y z hyz => hq.penalty.loc h y z fun c hc => hyz c (hP.blocks.of_eq hc),
            keep := fun k hk => (hstepk k hk).1, sub := fun k hk => (hstepk k hk).2 }
  · intro h
    obtain ⟨i, hi⟩ := hq.touched h
    obtain ⟨k, hk, he⟩ := List.getElem_of_mem (hidx.symm.subset (List.mem_range.mpr i.isLt))
    refine ⟨k, by omega, ?_⟩
    simp only [T, hsamp k hk]
    have : (⟨idx[k], hmem k hk⟩ : Fin n) = i := Fin.ext he
    rw [this]; exact hi
  · intro k hk
    have hS : 0 ≤ ∑ j ∈ Finset.range k, move x j := Finset.sum_nonneg fun _ _ => norm_nonneg _
    have hstale : ∀ j, |P.gi st.x j - P.gi (sts k).x j| * ‖rowV P j‖ ≤ M * R * ∑ j ∈ Finset.range k, move x j := by
      intro j
      refine (hq.gi_lip j _ _).trans (mul_le_mul_of_nonneg_left ?_ hMR)
      rw [norm_sub_rev]
      have := dist_le_moves x (Nat.zero_le k)
      simp only [x, h0] at this
      simpa [x] using this
    have h1 := dir_err_le hq hP (sts k).x (P.gi st.x) avg (samp k) havg' hstale (T k)
    have h2 : euc (passErr hP.blocks.of (vrG P) x u T k) = euc fun c : Fin p => if T k (hP.blocks.of c) then
      (avg c + P.alpha * (sts k).x c + (P.gi (sts k).x (samp k) - P.gi st.x (samp k)) * P.A.ent (samp k) c / blockW P (hP.blocks.of c)) -
        vrG P (sts k).x c else 0 := rfl
    rw [h2]
    refine h1.trans ?_
    have := mul_nonneg hq.alpha hS
    nlinarith

end SvrgPass

/-! ### Arithmetic of a pass -/

theorem gap_le {a G d mu : ℝ} (ha : 0 ≤ a) (h1 : a ≤ G * d) (h2 : mu / 2 * d ^ 2 ≤ a) (hmu : 0 < mu) : mu * a ≤ 2 * G ^ 2 := by
  rcases eq_or_lt_of_le ha with h0 | h0
  · rw [← h0, mul_zero]; positivity
  · have h3 : a ^ 2 ≤ G ^ 2 * d ^ 2 := by rw [← mul_pow]; exact pow_le_pow_left₀ ha h1 2
    have h4 : mu * a ^ 2 ≤ 2 * G ^ 2 * a := by
      have := mul_le_mul_of_nonneg_left h2 (sq_nonneg G)
      nlinarith [mul_le_mul_of_nonneg_left h3 hmu.le]
    refine le_of_mul_le_mul_right ?_ h0
    nlinarith

theorem saga_pass_linear {F0 F1 Fs Q Qp G d g D mu : ℝ} (hg : 0 < g) (hD : 1 ≤ D) (hmu : 0 < mu) (hmg : mu * g ≤ 8 * D) (hQ : 0 ≤ Q) (hQp : 0 ≤ Qp)
    (h1 : F1 + 1 / (g * D) / 2 * Q ≤ F0 + 1 / (g * D) / 8 * Qp) (hG : G ^ 2 ≤ (4 * Q + Qp) / g ^ 2)
    (h2 : F1 ≤ Fs + G * d) (h3 : mu / 2 * d ^ 2 ≤ F1 - Fs) (h4 : Fs ≤ F1) :
    (1 + mu * g / (40 * D)) * (F1 - Fs + 1 / (g * D) / 4 * Q) ≤ F0 - Fs + 1 / (g * D) / 4 * Qp := by
  have hD0 : 0 < D := by linarith
  have k1 := gap_le (G := G) (sub_nonneg.mpr h4) (by linarith) h3 hmu
  rw [le_div_iff₀ (by positivity)] at hG
  have k2 : mu * g ^ 2 * (F1 - Fs) ≤ 2 * (4 * Q + Qp) := by
    have := mul_le_mul_of_nonneg_right k1 (sq_nonneg g)
    nlinarith
  set B := 1 / (g * D) with hB
  have hB0 : 0 < B := by positivity
  have k3 : mu * g / (40 * D) * (F1 - Fs) ≤ B * (Q / 5 + Qp / 20) := by
    have e1 : mu * g / (40 * D) * (F1 - Fs) = B / 40 * (mu * g ^ 2 * (F1 - Fs)) := by rw [hB]; field_simp
    rw [e1]
    have := mul_le_mul_of_nonneg_left k2 (by positivity : 0 ≤ B / 40)
    linarith
  have k4 : mu * g / (40 * D) ≤ 1 / 5 := by rw [div_le_iff₀ (by positivity)]; linarith
  have k5 := mul_le_mul_of_nonneg_right k4 (by positivity : 0 ≤ B / 4 * Q)
  nlinarith [mul_nonneg hB0.le hQ, mul_nonneg hB0.le hQp]

theorem svrg_pass_linear {F0 F1 Fs Q G d g D mu : ℝ} (hg : 0 < g) (hD : 1 ≤ D) (hmu : 0 < mu) (hQ : 0 ≤ Q)
    (h1 : F1 + 1 / (g * D) / 2 * Q ≤ F0) (hG : G ^ 2 ≤ 4 * Q / g ^ 2)
    (h2 : F1 ≤ Fs + G * d) (h3 : mu / 2 * d ^ 2 ≤ F1 - Fs) (h4 : Fs ≤ F1) : (1 + mu * g / (20 * D)) * (F1 - Fs) ≤ F0 - Fs := by
  have hD0 : 0 < D := by linarith
  have k1 := gap_le (G := G) (sub_nonneg.mpr h4) (by linarith) h3 hmu
  rw [le_div_iff₀ (by positivity)] at hG
  have k2 : mu * g ^ 2 * (F1 - Fs) ≤ 8 * Q := by
    have := mul_le_mul_of_nonneg_right k1 (sq_nonneg g)
    nlinarith
  set B := 1 / (g * D) with hB
  have hB0 : 0 < B := by positivity
  have k3 : mu * g / (20 * D) * (F1 - Fs) ≤ B * (2 * Q / 5) := by
    have e1 : mu * g / (20 * D) * (F1 - Fs) = B / 20 * (mu * g ^ 2 * (F1 - Fs)) := by rw [hB]; field_simp
    rw [e1]
    have := mul_le_mul_of_nonneg_left k2 (by positivity : 0 ≤ B / 20)
    linarith
  nlinarith [mul_nonneg hB0.le hQ]

theorem saga_pass_sublinear {F0 F1 Fs Q Qp G d g D r V : ℝ} (hg : 0 < g) (hD : 1 ≤ D) (hQ : 0 ≤ Q) (hQp : 0 ≤ Qp)
    (h1 : F1 + 1 / (g * D) / 2 * Q ≤ F0 + 1 / (g * D) / 8 * Qp) (hG0 : 0 ≤ G) (hG : G ^ 2 ≤ (4 * Q + Qp) / g ^ 2) (hd : 0 ≤ d)
    (hdr : d ≤ r) (h2 : F1 ≤ Fs + G * d) (h4 : Fs ≤ F1) (hV : F0 - Fs + 1 / (g * D) / 4 * Qp ≤ V) :
    (F1 - Fs + 1 / (g * D) / 4 * Q) ^ 2 ≤ (32 * r ^ 2 * D / g + 2 * V) *
      ((F0 - Fs + 1 / (g * D) / 4 * Qp) - (F1 - Fs + 1 / (g * D) / 4 * Q)) := by
  have hD0 : 0 < D := by linarith
  have hr : 0 ≤ r := hd.trans hdr
  set B := 1 / (g * D) with hB
  have hB0 : 0 < B := by positivity
  set a := F1 - Fs with ha
  set dec := (F0 - Fs + B / 4 * Qp) - (a + B / 4 * Q) with hdec
  have k1 : B / 4 * Q + B / 8 * Qp ≤ dec := by rw [hdec, ha]; linarith
  have k2 : a ^ 2 ≤ r ^ 2 * ((4 * Q + Qp) / g ^ 2) := by
    have : a ≤ G * r := by have := mul_le_mul_of_nonneg_left hdr hG0; rw [ha]; linarith
    have h5 := pow_le_pow_left₀ (by rw [ha]; linarith : (0 : ℝ) ≤ a) this 2
    rw [mul_pow, mul_comm] at h5
    exact h5.trans (mul_le_mul_of_nonneg_left hG (sq_nonneg r))
  have k3 : r ^ 2 * ((4 * Q + Qp) / g ^ 2) ≤ 16 * r ^ 2 * D / g * dec := by
    have e1 : r ^ 2 * ((4 * Q + Qp) / g ^ 2) = r ^ 2 * D / g * (B * (4 * Q + Qp)) := by rw [hB]; field_simp
    rw [e1]
    have : B * (4 * Q + Qp) ≤ 16 * dec := by nlinarith [mul_nonneg hB0.le hQp]
    have := mul_le_mul_of_nonneg_left this (by positivity : 0 ≤ r ^ 2 * D / g)
    refine this.trans (le_of_eq (by ring))
  have k4 : (B / 4 * Q) ^ 2 ≤ V * dec := by
    have hq0 : 0 ≤ B / 4 * Q := by positivity
    have hqp0 : 0 ≤ B / 8 * Qp := by positivity
    have hdec0 : B / 4 * Q ≤ dec := by linarith
    have hqV : B / 4 * Q ≤ V := by
      have : a + B / 4 * Q ≤ V := by rw [hdec] at k1; linarith
      have : 0 ≤ a := by rw [ha]; linarith
      linarith
    rw [sq]
    exact mul_le_mul hqV hdec0 hq0 (hq0.trans hqV)
  have k5 : (a + B / 4 * Q) ^ 2 ≤ 2 * a ^ 2 + 2 * (B / 4 * Q) ^ 2 := by nlinarith [sq_nonneg (a - B / 4 * Q)]
  have k6 : (32 * r ^ 2 * D / g + 2 * V) * dec = 2 * (16 * r ^ 2 * D / g * dec) + 2 * (V * dec) := by ring
  rw [k6]
  linarith

theorem svrg_pass_sublinear {F0 F1 Fs Q G d g D r V : ℝ} (hg : 0 < g) (hD : 1 ≤ D) (hQ : 0 ≤ Q)
    (h1 : F1 + 1 / (g * D) / 2 * Q ≤ F0) (hG0 : 0 ≤ G) (hG : G ^ 2 ≤ 4 * Q / g ^ 2) (hd : 0 ≤ d)
    (hdr : d ≤ r) (h2 : F1 ≤ Fs + G * d) (h4 : Fs ≤ F1) (hV : 0 ≤ V) :
    (F1 - Fs) ^ 2 ≤ (8 * r ^ 2 * D / g + V) * ((F0 - Fs) - (F1 - Fs)) := by
  have hD0 : 0 < D := by linarith
  have hr : 0 ≤ r := hd.trans hdr
  set B := 1 / (g * D) with hB
  have hB0 : 0 < B := by positivity
  set a := F1 - Fs with ha
  have k1 : B / 2 * Q ≤ (F0 - Fs) - a := by rw [ha]; linarith
  have k2 : a ^ 2 ≤ r ^ 2 * (4 * Q / g ^ 2) := by
    have : a ≤ G * r := by have := mul_le_mul_of_nonneg_left hdr hG0; rw [ha]; linarith
    have h5 := pow_le_pow_left₀ (by rw [ha]; linarith : (0 : ℝ) ≤ a) this 2
    rw [mul_pow, mul_comm] at h5
    exact h5.trans (mul_le_mul_of_nonneg_left hG (sq_nonneg r))
  have k3 : r ^ 2 * (4 * Q / g ^ 2) ≤ 8 * r ^ 2 * D / g * ((F0 - Fs) - a) := by
    have e1 : r ^ 2 * (4 * Q / g ^ 2) = 8 * r ^ 2 * D / g * (B / 2 * Q) := by rw [hB]; field_simp; ring
    rw [e1]
    exact mul_le_mul_of_nonneg_left k1 (by positivity)
  have k4 : 0 ≤ V * ((F0 - Fs) - a) := mul_nonneg hV (le_trans (by positivity) k1)
  rw [add_mul]
  linarith

/-- A sequence with `a₊² ≤ C (a - a₊)` decays like `2 C / (k + 1)`. -/
theorem sublinear_step {a a' C : ℝ} {k : ℕ} (hC' : 0 ≤ C) (ha' : 0 ≤ a') (h1 : a' ^ 2 ≤ C * (a - a')) (h2 : a ≤ 2 * C / (k + 1)) : a' ≤ 2 * C / (k + 2) := by
  rcases eq_or_lt_of_le hC' with h0 | hC
  · rw [← h0, zero_mul] at h1
    rw [← h0, pow_eq_zero_iff two_ne_zero |>.mp (le_antisymm h1 (sq_nonneg _)), mul_zero, zero_div]
  by_contra hc
  push Not at hc
  have hk : (0 : ℝ) ≤ k := Nat.cast_nonneg k
  rw [div_lt_iff₀ (by positivity)] at hc
  rw [le_div_iff₀ (by positivity)] at h2
  have h3 : a' * (k + 2) * (a' + C) > 2 * C * (a' + C) := mul_lt_mul_of_pos_right hc (by linarith)
  have h4 : a' * (a' + C) ≤ C * a := by nlinarith
  have h5 : a' * (a' + C) * (k + 1) ≤ 2 * C * C := by
    have := mul_le_mul_of_nonneg_right h4 (by linarith : (0 : ℝ) ≤ k + 1)
    have := mul_le_mul_of_nonneg_left h2 hC.le
    nlinarith
  have hapos : 0 < a' := by
    rcases eq_or_lt_of_le ha' with h | h
    · rw [← h] at hc; linarith
    · exact h
  -- 2 C (a' + C) (k+1) < a' (a' + C)(k+2)(k+1) ≤ 2 C² (k + 2)
  have h6 : 2 * C * (a' + C) * (k + 1) < 2 * C * C * (k + 2) := by nlinarith
  have h7 : (a' + C) * (k + 1) < C * (k + 2) := by nlinarith
  nlinarith

/-! ### Loops -/

section Loops
variable {P : VRArgs ℝ n p}

theorem sagaLoop_inv {S : Support n P.blocks.nb} {step : ℝ} (I : ℕ → SagaState ℝ n p → Prop) (tau : ℕ → ℝ)
    (hI : ∀ k st, I k st → ∃ st', sagaEpoch P S step st (P.order k) = some st' ∧ I (k + 1) st' ∧ ∑ c, |st'.x c - st.x c| ≤ tau k) :
    ∀ (rem it : ℕ) (st : SagaState ℝ n p), I it st → ∃ r, sagaLoop P S step rem it st = some r ∧ it ≤ r.nit ∧ r.nit ≤ it + rem ∧
      I (r.nit + 1) r.final ∧ r.x = r.final.x ∧ (r.success = false → r.nit = it + rem ∧ P.tol ≤ tau r.nit) := by
  intro rem
  induction rem with
  | zero =>
    intro it st hst
    obtain ⟨st', hst', hI', ht'⟩ := hI it st hst
    by_cases ht : ∑ c, |st'.x c - st.x c| < P.tol
    · exact ⟨⟨st'.x, true, it, st'⟩, by rw [sagaLoop]; simp [hst', ht], le_rfl, le_rfl, hI', rfl, by simp⟩
    · exact ⟨⟨st'.x, false, it, st'⟩, by rw [sagaLoop]; simp [hst', ht], le_rfl, le_rfl, hI', rfl, fun _ => ⟨rfl, (not_lt.mp ht).trans ht'⟩⟩
  | succ rem ih =>
    intro it st hst
    obtain ⟨st', hst', hI', ht'⟩ := hI it st hst
    by_cases ht : ∑ c, |st'.x c - st.x c| < P.tol
    · exact ⟨⟨st'.x, true, it, st'⟩, by rw [sagaLoop]; simp [hst', ht], le_rfl, by simp, hI', rfl, by simp⟩
    · obtain ⟨r, hr, h1, h2, h3, h4, h5⟩ := ih (it + 1) st' hI'
      refine ⟨r, by rw [sagaLoop]; simp [hst', ht, hr], by omega, by omega, h3, h4, fun hs => ?_⟩
      obtain ⟨k1, k2⟩ := h5 hs
      exact ⟨by omega, k2⟩

theorem svrgLoop_inv {S : Support n P.blocks.nb} {step : ℝ} (I : ℕ → SvrgState ℝ p → Prop) (tau : ℕ → ℝ)
    (hI : ∀ k st, I k st → ∃ avg st', fullGrad P st.x = some avg ∧ svrgEpoch P S step st.x avg st (P.order k) = some st' ∧ I (k + 1) st' ∧
      ∑ c, |st'.x c - st.x c| ≤ tau k) :
    ∀ (rem it : ℕ) (st : SvrgState ℝ p), I it st → ∃ r, svrgLoop P S step rem it st = some r ∧ it ≤ r.nit ∧ r.nit ≤ it + rem ∧
      I (r.nit + 1) r.final ∧ r.x = r.final.x ∧ (r.success = false → r.nit = it + rem ∧ P.tol ≤ tau r.nit) := by
  intro rem
  induction rem with
  | zero =>
    intro it st hst
    obtain ⟨avg, st', havg, hst', hI', ht'⟩ := hI it st hst
    by_cases ht : ∑ c, |st'.x c - st.x c| < P.tol
    · exact ⟨⟨st'.x, true, it, st'⟩, by rw [svrgLoop]; simp [havg, hst', ht], le_rfl, le_rfl, hI', rfl, by simp⟩
    · exact ⟨⟨st'.x, false, it, st'⟩, by rw [svrgLoop]; simp [havg, hst', ht], le_rfl, le_rfl, hI', rfl, fun _ => ⟨rfl, (not_lt.mp ht).trans ht'⟩⟩
  | succ rem ih =>
    intro it st hst
    obtain ⟨avg, st', havg, hst', hI', ht'⟩ := hI it st hst
    by_cases ht : ∑ c, |st'.x c - st.x c| < P.tol
    · exact ⟨⟨st'.x, true, it, st'⟩, by rw [svrgLoop]; simp [havg, hst', ht], le_rfl, by simp, hI', rfl, by simp⟩
    · obtain ⟨r, hr, h1, h2, h3, h4, h5⟩ := ih (it + 1) st' hI'
      refine ⟨r, by rw [svrgLoop]; simp [havg, hst', ht, hr], by omega, by omega, h3, h4, fun hs => ?_⟩
      obtain ⟨k1, k2⟩ := h5 hs
      exact ⟨by omega, k2⟩

/-- The change over a pass that the stopping test looks at. -/
theorem change_le (x : ℕ → Fin p → ℝ) {a b : Fin p → ℝ} (h0 : x 0 = a) (hn : x n = b) {t : ℝ} (ht : passSq x n ≤ t) : ∑ c, |b c - a c| ≤ √(p * n * t) := by
  refine (sum_abs_le b a).trans ?_
  have h1 : ‖euc b - euc a‖ ^ 2 ≤ n * t := by
    rw [← h0, ← hn]
    refine le_trans (pow_le_pow_left₀ (norm_nonneg _) ((dist_le_moves x (Nat.zero_le n)).trans (moves_mono x le_rfl)) 2) ((moves_sq x n).trans ?_)
    exact mul_le_mul_of_nonneg_left ht (Nat.cast_nonneg n)
  have h2 : ‖euc b - euc a‖ ≤ √(n * t) := Real.le_sqrt_of_sq_le h1
  rw [mul_assoc, Real.sqrt_mul (Nat.cast_nonneg p)]
  exact mul_le_mul_of_nonneg_left h2 (Real.sqrt_nonneg _)

end Loops

/-! ### The runs -/

section Runs
variable {P : VRArgs ℝ n p} {pen : Fin P.blocks.nb → (Fin p → ℝ) → ℝ} {f : ℝ → ℝ → ℝ} {M R D : ℝ}

theorem PenProblem.support_ne_nil (hq : PenProblem P pen f M R D) (hP : P.Good) (hp : 0 < p) {S : Support n P.blocks.nb} (hS : SupportOk P.A hP.blocks S) :
    S.bs ≠ [] := by
  have h1 := hS.count (hP.blocks.of ⟨0, hp⟩)
  have hpos := hq.count_pos (hP.blocks.of ⟨0, hp⟩)
  intro hnil
  rw [hnil] at h1
  simp at h1
  omega

/-- The state after a pass of SAGA: consistent memory, off by the movements of that pass; the objective plus the weighted squared movements is at most `a`. -/
def SagaAfter (P : VRArgs ℝ n p) (pen : Fin P.blocks.nb → (Fin p → ℝ) → ℝ) (f : ℝ → ℝ → ℝ) (M R D step Fs a : ℝ) (st : SagaState ℝ n p) : Prop :=
  SagaClean P st ∧ ∃ Wp Qp : ℝ, 0 ≤ Wp ∧ 0 ≤ Qp ∧ Wp ^ 2 ≤ n * Qp ∧ (∀ j, |st.mem j - P.gi st.x j| * ‖rowV P j‖ ≤ M * R * Wp) ∧
    vrObj P pen f st.x - Fs + 1 / (step * D) / 4 * Qp ≤ a

/-- The first pass of SAGA, from an empty memory. -/
theorem saga_first (hp : 0 < p) (hq : PenProblem P pen f M R D) (hP : P.Good) {S : Support n P.blocks.nb} (hok : SupportOk P.A hP.blocks S) {step : ℝ}
    (hstep : 0 < step) (hs1 : 10 * n * (M * R + P.alpha) * (step * D) ≤ 1) {Fs : ℝ} (hFs : ∀ y, Fs ≤ vrObj P pen f y) {m : ℝ} (hm0 : 0 ≤ m)
    (hm : ∀ j : Fin n, |P.deriv (∑ c : Fin p, P.A.ent j c * P.x0 c) (P.b j)| * √(∑ c : Fin p, P.A.ent j c ^ 2) ≤ m)
    {idx : List ℕ} (hidx : idx.Perm (List.range n)) : ∃ st', sagaEpoch P S step (sagaInit P) idx = some st' ∧
      SagaAfter P pen f M R D step Fs (vrObj P pen f P.x0 - Fs + 8 * n * (step * D) * m ^ 2) st' ∧
      ∑ c, |st'.x c - (sagaInit P).x c| ≤ √(p * n * (4 * (step * D) * (vrObj P pen f P.x0 - Fs + 8 * n * (step * D) * m ^ 2))) := by
  have hD1 := hq.D_one hP hp
  have hL : 0 ≤ M * R + P.alpha := add_nonneg (mul_nonneg hq.nonneg hq.R_nonneg) hq.alpha
  obtain ⟨st', x, u, T, hrun, hcl, hx0, hxn, hB, hall, herr, hmem⟩ := saga_blockPass hq hP hok hstep (sagaInit P)
    ⟨fun c => by simp [sagaInit], rfl⟩ (Wp := 0) le_rfl (m := m) (fun j => by
      have := hm j
      rw [norm_euc]
      simpa [sagaInit, VRArgs.gi] using this) hm0 hidx
  have hdesc := hB.pass_descent hq.samples hL hD1 hs1 (Wp := 0) (Qp := 0) (m := m) (by simp) herr
  rw [hx0, hxn] at hdesc
  have hQ := passSq_nonneg x n
  have hgD : 0 < step * D := by positivity
  have hBp : 0 < 1 / (step * D) := by positivity
  have hd : vrObj P pen f st'.x + 1 / (step * D) / 2 * passSq x n ≤ vrObj P pen f P.x0 + 8 * n * (step * D) * m ^ 2 := by
    have : (sagaInit P).x = P.x0 := rfl
    rw [this] at hdesc
    unfold vrObj
    linarith
  have hV : vrObj P pen f st'.x - Fs + 1 / (step * D) / 4 * passSq x n ≤ vrObj P pen f P.x0 - Fs + 8 * n * (step * D) * m ^ 2 := by
    nlinarith [mul_nonneg hBp.le hQ]
  refine ⟨st', hrun, ⟨hcl, _, passSq x n, Finset.sum_nonneg fun _ _ => norm_nonneg _, hQ, moves_sq x n, hmem, hV⟩, change_le x hx0 hxn ?_⟩
  have h1 : 1 / (step * D) / 4 * passSq x n ≤ vrObj P pen f P.x0 - Fs + 8 * n * (step * D) * m ^ 2 := by
    have := hFs st'.x
    linarith
  have h2 : passSq x n = 4 * (step * D) * (1 / (step * D) / 4 * passSq x n) := by field_simp
  rw [h2]
  exact mul_le_mul_of_nonneg_left h1 (by positivity)

/-- A later pass of SAGA: facts about the objective before and after. -/
theorem saga_later (hp : 0 < p) (hq : PenProblem P pen f M R D) (hP : P.Good) {S : Support n P.blocks.nb} (hok : SupportOk P.A hP.blocks S) {step : ℝ}
    (hstep : 0 < step) (hs1 : 10 * n * (M * R + P.alpha) * (step * D) ≤ 1) {Fs a : ℝ} (hFs : ∀ y, Fs ≤ vrObj P pen f y)
    (st : SagaState ℝ n p) (hst : SagaAfter P pen f M R D step Fs a st) {idx : List ℕ} (hidx : idx.Perm (List.range n)) :
    ∃ (st' : SagaState ℝ n p) (Q Qp G : ℝ), sagaEpoch P S step st idx = some st' ∧ 0 ≤ Q ∧ 0 ≤ Qp ∧ 0 ≤ G ∧ G ^ 2 ≤ (4 * Q + Qp) / step ^ 2 ∧
      vrObj P pen f st.x - Fs + 1 / (step * D) / 4 * Qp ≤ a ∧
      vrObj P pen f st'.x + 1 / (step * D) / 2 * Q ≤ vrObj P pen f st.x + 1 / (step * D) / 8 * Qp ∧
      (∀ y, vrObj P pen f st'.x ≤ vrObj P pen f y + G * ‖euc st'.x - euc y‖) ∧
      (∀ a', vrObj P pen f st'.x - Fs + 1 / (step * D) / 4 * Q ≤ a' → SagaAfter P pen f M R D step Fs a' st') ∧
      ∑ c, |st'.x c - st.x c| ≤ √(p * n * (4 * (step * D) * a)) := by
  have hD1 := hq.D_one hP hp
  have hL : 0 ≤ M * R + P.alpha := add_nonneg (mul_nonneg hq.nonneg hq.R_nonneg) hq.alpha
  obtain ⟨hcl0, Wp, Qp, hWp, hQp, hWQ, hstale, hVa⟩ := hst
  obtain ⟨st', x, u, T, hrun, hcl, hx0, hxn, hB, hall, herr, hmem⟩ := saga_blockPass hq hP hok hstep st hcl0 hWp (m := 0)
    (fun j => by rw [add_zero]; exact hstale j) le_rfl hidx
  have hdesc := hB.pass_descent hq.samples hL hD1 hs1 hWQ herr
  obtain ⟨G, hG0, hG, hgap⟩ := hB.pass_gap hq.samples hL hD1 hs1 hall hWQ (fun k hk => by have := herr k hk; simpa using this)
  rw [hx0, hxn] at hdesc
  rw [hxn] at hgap
  have hQ := passSq_nonneg x n
  have hBp : 0 < 1 / (step * D) := by positivity
  have hd : vrObj P pen f st'.x + 1 / (step * D) / 2 * passSq x n ≤ vrObj P pen f st.x + 1 / (step * D) / 8 * Qp := by
    unfold vrObj
    simp only [ne_eq, OfNat.ofNat_ne_zero, not_false_eq_true, zero_pow, mul_zero, add_zero] at hdesc
    linarith
  refine ⟨st', passSq x n, Qp, G, hrun, hQ, hQp, hG0, hG, hVa, hd, hgap, fun a' ha' => ⟨hcl, _, _, Finset.sum_nonneg fun _ _ => norm_nonneg _, hQ,
    moves_sq x n, hmem, ha'⟩, change_le x hx0 hxn ?_⟩
  have h1 : 1 / (step * D) / 4 * passSq x n ≤ a := by
    have := hFs st'.x
    have := mul_nonneg hBp.le hQp
    have := mul_nonneg hBp.le hQ
    linarith
  have h2 : passSq x n = 4 * (step * D) * (1 / (step * D) / 4 * passSq x n) := by field_simp
  rw [h2]
  exact mul_le_mul_of_nonneg_left h1 (by positivity)

theorem minimizeSaga_of_loop (hp : 0 < p) (hq : PenProblem P pen f M R D) (hP : P.Good) {step : ℝ} (hss : P.stepSize = some step) {S : Support n P.blocks.nb}
    (hS : P.support = some S) (hok : SupportOk P.A hP.blocks S) {k : ℕ} (hk : P.maxIter = k + 1) {r : VRResult ℝ p (SagaState ℝ n p)}
    (hr : sagaLoop P S step k 0 (sagaInit P) = some r) : minimizeSaga P = .ok r := by
  unfold minimizeSaga
  rw [hss, hS, hk]
  simp only [orFault, bind, Except.bind]
  rw [if_neg (hq.support_ne_nil hP hp hok), hr]

theorem minimizeSvrg_of_loop (hp : 0 < p) (hq : PenProblem P pen f M R D) (hP : P.Good) {step : ℝ} (hss : P.stepSize = some step) {S : Support n P.blocks.nb}
    (hS : P.support = some S) (hok : SupportOk P.A hP.blocks S) {k : ℕ} (hk : P.maxIter = k + 1) {r : VRResult ℝ p (SvrgState ℝ p)}
    (hr : svrgLoop P S step k 0 { x := P.x0, tmp := fun _ => 0 } = some r) : minimizeSvrg P = .ok r := by
  unfold minimizeSvrg
  rw [hss, hS, hk]
  simp only [orFault, bind, Except.bind]
  rw [if_neg (hq.support_ne_nil hP hp hok), hr]

/-- **C98.** `minimize_saga` with any block structure and any convex block penalty, passes that visit every sample once in any order whatever, and a step of
at most `1 / (10 n (M R + alpha) D)`: when the objective grows quadratically around `xs` it returns, after `nit + 1` passes the objective of the result
exceeds the minimum by at most `(1 + mu step / (40 D))^(-nit)` times a constant fixed by the starting point, and without success all `max_iter` passes were
made and `tol` is below a bound that shrinks at the same rate - so for positive `tol` and enough passes it succeeds. -/
theorem C98_saga_penalised (hp : 0 < p) (hP : P.Good) (hq : PenProblem P pen f M R D) {step : ℝ} (hss : P.stepSize = some step) (hstep : 0 < step)
    (hs1 : 10 * n * (M * R + P.alpha) * (step * D) ≤ 1) {xs : Fin p → ℝ} {mu : ℝ} (hmu : 0 < mu) (hmuL : mu ≤ M * R + P.alpha)
    (hgrow : ∀ y, vrObj P pen f xs + mu / 2 * sqDist y xs ≤ vrObj P pen f y)
    (horder : ∀ k, (P.order k).Perm (List.range n)) (hmax : 0 < P.maxIter) (m : ℝ) (hm0 : 0 ≤ m)
    (hm : ∀ j : Fin n, |P.deriv (∑ c : Fin p, P.A.ent j c * P.x0 c) (P.b j)| * √(∑ c : Fin p, P.A.ent j c ^ 2) ≤ m) : ∃ r, minimizeSaga P = .ok r ∧
      (1 + mu * step / (40 * D)) ^ r.nit * (vrObj P pen f r.x - vrObj P pen f xs) ≤
        vrObj P pen f P.x0 - vrObj P pen f xs + 8 * n * (step * D) * m ^ 2 ∧
      (r.success = false → r.nit + 1 = P.maxIter ∧ P.tol ≤ √(p * n * (4 * (step * D) *
        ((vrObj P pen f P.x0 - vrObj P pen f xs + 8 * n * (step * D) * m ^ 2) / (1 + mu * step / (40 * D)) ^ (r.nit - 1))))) := by
  obtain ⟨S, hS, hok⟩ := hP.support
  have hD1 := hq.D_one hP hp
  have hn1 : (1 : ℝ) ≤ n := by exact_mod_cast hq.samples
  set Fs := vrObj P pen f xs with hFsdef
  set V := vrObj P pen f P.x0 - Fs + 8 * n * (step * D) * m ^ 2 with hV
  set q := 1 + mu * step / (40 * D) with hqdef
  have hq1 : 1 ≤ q := by rw [hqdef]; have : 0 ≤ mu * step / (40 * D) := by positivity
                         linarith
  have hq0 : 0 < q := by linarith
  have hFs : ∀ y, Fs ≤ vrObj P pen f y := fun y => by
    have := hgrow y
    have h0 : 0 ≤ sqDist y xs := Finset.sum_nonneg fun c _ => sq_nonneg _
    have := mul_nonneg (by linarith : 0 ≤ mu / 2) h0
    linarith
  have hmg : mu * step ≤ 8 * D := by
    have h1 : mu * step ≤ (M * R + P.alpha) * step := mul_le_mul_of_nonneg_right hmuL hstep.le
    have hLs : 0 ≤ (M * R + P.alpha) * step := mul_nonneg (hmu.le.trans hmuL) hstep.le
    have hnD : 1 ≤ n * D := by nlinarith
    have h2 : 10 * ((M * R + P.alpha) * step) * 1 ≤ 10 * ((M * R + P.alpha) * step) * (n * D) := mul_le_mul_of_nonneg_left hnD (by positivity)
    have h3 : 10 * ((M * R + P.alpha) * step) * (n * D) = 10 * n * (M * R + P.alpha) * (step * D) := by ring
    linarith
  obtain ⟨k, hk⟩ : ∃ k, P.maxIter = k + 1 := ⟨P.maxIter - 1, by omega⟩
  let I : ℕ → SagaState ℝ n p → Prop := fun k st => match k with
    | 0 => st = sagaInit P
    | k + 1 => SagaAfter P pen f M R D step Fs (V / q ^ k) st
  have hlift : ∀ k st, I k st → ∃ st', sagaEpoch P S step st (P.order k) = some st' ∧ I (k + 1) st' ∧
      ∑ c, |st'.x c - st.x c| ≤ √(p * n * (4 * (step * D) * (V / q ^ (k - 1)))) := by
    intro k st hst
    cases k with
    | zero =>
      obtain rfl : st = sagaInit P := hst
      obtain ⟨st', h1, h2, h3⟩ := saga_first hp hq hP hok hstep hs1 hFs hm0 hm (horder 0)
      exact ⟨st', h1, by show SagaAfter P pen f M R D step Fs (V / q ^ 0) st'; simpa using h2, by simpa using h3⟩
    | succ k =>
      have hst : SagaAfter P pen f M R D step Fs (V / q ^ k) st := hst
      obtain ⟨st', Q, Qp, G, hrun, hQ, hQp, hG0, hG, hVa, hd, hgap, hnext, hch⟩ := saga_later hp hq hP hok hstep hs1 hFs st hst (horder (k + 1))
      have hlin := saga_pass_linear hstep hD1 hmu hmg hQ hQp hd hG (hgap xs)
        (by
          have := hgrow st'.x
          have e : ‖euc st'.x - euc xs‖ ^ 2 = sqDist st'.x xs := norm_euc_sq fun c => st'.x c - xs c
          rw [e]; linarith) (hFs st'.x)
      rw [← hqdef] at hlin
      refine ⟨st', hrun, hnext _ ?_, by simpa using hch⟩
      rw [pow_succ, ← div_div V, le_div_iff₀ hq0, mul_comm]
      exact hlin.trans hVa
  obtain ⟨r, hr, -, h2, h3, h4, h5⟩ := sagaLoop_inv I _ hlift k 0 (sagaInit P) rfl
  refine ⟨r, minimizeSaga_of_loop hp hq hP hss hS hok hk hr, ?_, fun hs => ?_⟩
  · have h3 : SagaAfter P pen f M R D step Fs (V / q ^ r.nit) r.final := h3
    obtain ⟨-, Wp, Qp, -, hQp, -, -, hb⟩ := h3
    rw [h4, mul_comm, ← le_div_iff₀ (pow_pos hq0 _)]
    have : 0 ≤ 1 / (step * D) / 4 * Qp := by positivity
    linarith
  · obtain ⟨k1, k2⟩ := h5 hs
    exact ⟨by omega, k2⟩

/-- **C98 (SVRG).** The same for `minimize_svrg`, when every sample stores all the features of the blocks it touches. -/
theorem C98_svrg_penalised (hp : 0 < p) (hP : P.Good) (hq : PenProblem P pen f M R D) (hfull : FullBlocks P) {step : ℝ} (hss : P.stepSize = some step)
    (hstep : 0 < step) (hs1 : 10 * n * (M * R + P.alpha) * (step * D) ≤ 1) {xs : Fin p → ℝ} {mu : ℝ} (hmu : 0 < mu)
    (hgrow : ∀ y, vrObj P pen f xs + mu / 2 * sqDist y xs ≤ vrObj P pen f y)
    (horder : ∀ k, (P.order k).Perm (List.range n)) (hmax : 0 < P.maxIter) : ∃ r, minimizeSvrg P = .ok r ∧
      (1 + mu * step / (20 * D)) ^ (r.nit + 1) * (vrObj P pen f r.x - vrObj P pen f xs) ≤ vrObj P pen f P.x0 - vrObj P pen f xs ∧
      (r.success = false → r.nit + 1 = P.maxIter ∧ P.tol ≤ √(p * n * (2 * (step * D) *
        ((vrObj P pen f P.x0 - vrObj P pen f xs) / (1 + mu * step / (20 * D)) ^ r.nit)))) := by
  obtain ⟨S, hS, hok⟩ := hP.support
  have hD1 := hq.D_one hP hp
  have hL : 0 ≤ M * R + P.alpha := add_nonneg (mul_nonneg hq.nonneg hq.R_nonneg) hq.alpha
  set Fs := vrObj P pen f xs with hFsdef
  set V := vrObj P pen f P.x0 - Fs with hV
  set q := 1 + mu * step / (20 * D) with hqdef
  have hq0 : 0 < q := by rw [hqdef]; positivity
  have hFs : ∀ y, Fs ≤ vrObj P pen f y := fun y => by
    have := hgrow y
    have h0 : 0 ≤ sqDist y xs := Finset.sum_nonneg fun c _ => sq_nonneg _
    have := mul_nonneg (by linarith : 0 ≤ mu / 2) h0
    linarith
  obtain ⟨k, hk⟩ : ∃ k, P.maxIter = k + 1 := ⟨P.maxIter - 1, by omega⟩
  let I : ℕ → SvrgState ℝ p → Prop := fun k st => vrObj P pen f st.x - Fs ≤ V / q ^ k
  have hlift : ∀ k st, I k st → ∃ avg st', fullGrad P st.x = some avg ∧ svrgEpoch P S step st.x avg st (P.order k) = some st' ∧ I (k + 1) st' ∧
      ∑ c, |st'.x c - st.x c| ≤ √(p * n * (2 * (step * D) * (V / q ^ k))) := by
    intro k st hst
    obtain ⟨avg, st', x, u, T, havg, hrun, hx0, hxn, hB, hall, herr⟩ := svrg_blockPass hq hP hfull hok hstep st (horder k)
    have hdesc := hB.pass_descent hq.samples hL hD1 hs1 (Wp := 0) (Qp := 0) (m := 0) (by simp) (fun k hk => by have := herr k hk; simpa using this)
    obtain ⟨G, hG0, hG, hgap⟩ := hB.pass_gap hq.samples hL hD1 hs1 hall (Wp := 0) (Qp := 0) (by simp) herr
    rw [hx0, hxn] at hdesc
    rw [hxn] at hgap
    rw [add_zero] at hG
    have hQ := passSq_nonneg x n
    have hd : vrObj P pen f st'.x + 1 / (step * D) / 2 * passSq x n ≤ vrObj P pen f st.x := by
      unfold vrObj
      simp only [ne_eq, OfNat.ofNat_ne_zero, not_false_eq_true, zero_pow, mul_zero, add_zero] at hdesc
      linarith
    have hgx : vrObj P pen f st'.x ≤ Fs + G * ‖euc st'.x - euc xs‖ := hgap xs
    have hlin := svrg_pass_linear hstep hD1 hmu hQ hd hG hgx
        (by
          have := hgrow st'.x
          have e : ‖euc st'.x - euc xs‖ ^ 2 = sqDist st'.x xs := norm_euc_sq fun c => st'.x c - xs c
          rw [e]; linarith) (hFs st'.x)
    rw [← hqdef] at hlin
    refine ⟨avg, st', havg, hrun, ?_, change_le x hx0 hxn ?_⟩
    · show _ ≤ V / q ^ (k + 1)
      rw [pow_succ, ← div_div V, le_div_iff₀ hq0, mul_comm]
      exact hlin.trans hst
    · have h1 : 1 / (step * D) / 2 * passSq x n ≤ V / q ^ k := by
        have := hFs st'.x
        have : vrObj P pen f st.x - Fs ≤ V / q ^ k := hst
        linarith
      have h2 : passSq x n = 2 * (step * D) * (1 / (step * D) / 2 * passSq x n) := by field_simp
      rw [h2]
      exact mul_le_mul_of_nonneg_left h1 (by positivity)
  obtain ⟨r, hr, -, h2, h3, h4, h5⟩ := svrgLoop_inv I _ hlift k 0 { x := P.x0, tmp := fun _ => 0 } (by show _ ≤ V / q ^ 0; simp [hV])
  refine ⟨r, minimizeSvrg_of_loop hp hq hP hss hS hok hk hr, ?_, fun hs => ?_⟩
  · have h3 : vrObj P pen f r.final.x - Fs ≤ V / q ^ (r.nit + 1) := h3
    rw [h4, mul_comm, ← le_div_iff₀ (pow_pos hq0 _)]
    exact h3
  · obtain ⟨k1, k2⟩ := h5 hs
    exact ⟨by omega, k2⟩

/-- **C99.** `minimize_saga` without strong convexity: when the points whose objective does not exceed the starting value (plus a term of the first pass) lie
within `r0` of a minimiser, the objective of the result of `nit + 1` passes, in any order, exceeds the minimum by at most `2 C / (nit + 1)`. -/
theorem C99_saga_sublinear (hp : 0 < p) (hP : P.Good) (hq : PenProblem P pen f M R D) {step : ℝ} (hss : P.stepSize = some step) (hstep : 0 < step)
    (hs1 : 10 * n * (M * R + P.alpha) * (step * D) ≤ 1) {xs : Fin p → ℝ} (hmin : ∀ y, vrObj P pen f xs ≤ vrObj P pen f y)
    (horder : ∀ k, (P.order k).Perm (List.range n)) (hmax : 0 < P.maxIter) (m : ℝ) (hm0 : 0 ≤ m)
    (hm : ∀ j : Fin n, |P.deriv (∑ c : Fin p, P.A.ent j c * P.x0 c) (P.b j)| * √(∑ c : Fin p, P.A.ent j c ^ 2) ≤ m) {r0 : ℝ} (hr0 : 0 ≤ r0)
    (hrad : ∀ y, vrObj P pen f y ≤ vrObj P pen f P.x0 + 8 * n * (step * D) * m ^ 2 → sqDist y xs ≤ r0 ^ 2) : ∃ r, minimizeSaga P = .ok r ∧
      vrObj P pen f r.x - vrObj P pen f xs ≤
        2 * (32 * r0 ^ 2 * D / step + 2 * (vrObj P pen f P.x0 - vrObj P pen f xs + 8 * n * (step * D) * m ^ 2)) / (r.nit + 1) ∧
      (r.success = false → r.nit + 1 = P.maxIter ∧ P.tol ≤ √(p * n * (4 * (step * D) *
        (2 * (32 * r0 ^ 2 * D / step + 2 * (vrObj P pen f P.x0 - vrObj P pen f xs + 8 * n * (step * D) * m ^ 2)) / ((r.nit - 1 : ℕ) + 1))))) := by
  obtain ⟨S, hS, hok⟩ := hP.support
  have hD1 := hq.D_one hP hp
  set Fs := vrObj P pen f xs with hFsdef
  set V := vrObj P pen f P.x0 - Fs + 8 * n * (step * D) * m ^ 2 with hV
  have hV0 : 0 ≤ V := by
    have : 0 ≤ 8 * n * (step * D) * m ^ 2 := by positivity
    have := hmin P.x0
    linarith
  set C := 32 * r0 ^ 2 * D / step + 2 * V with hC
  have hC0 : 0 ≤ C := by
    have : 0 ≤ 32 * r0 ^ 2 * D / step := by positivity
    linarith
  have hVC : V ≤ 2 * C := by
    have : 0 ≤ 32 * r0 ^ 2 * D / step := by positivity
    linarith
  obtain ⟨k, hk⟩ : ∃ k, P.maxIter = k + 1 := ⟨P.maxIter - 1, by omega⟩
  let I : ℕ → SagaState ℝ n p → Prop := fun k st => match k with
    | 0 => st = sagaInit P
    | k + 1 => SagaAfter P pen f M R D step Fs (min V (2 * C / (k + 1))) st
  have hlift : ∀ k st, I k st → ∃ st', sagaEpoch P S step st (P.order k) = some st' ∧ I (k + 1) st' ∧
      ∑ c, |st'.x c - st.x c| ≤ √(p * n * (4 * (step * D) * (2 * C / ((k - 1 : ℕ) + 1)))) := by
    intro k st hst
    have hmono : ∀ {s t : ℝ}, s ≤ t → √(p * n * (4 * (step * D) * s)) ≤ √(p * n * (4 * (step * D) * t)) := fun hst =>
      Real.sqrt_le_sqrt (mul_le_mul_of_nonneg_left (mul_le_mul_of_nonneg_left hst (by positivity)) (by positivity))
    cases k with
    | zero =>
      obtain rfl : st = sagaInit P := hst
      obtain ⟨st', h1, h2, h3⟩ := saga_first hp hq hP hok hstep hs1 hmin hm0 hm (horder 0)
      refine ⟨st', h1, ?_, ?_⟩
      · show SagaAfter P pen f M R D step Fs (min V (2 * C / ((0 : ℕ) + 1))) st'
        have : min V (2 * C / ((0 : ℕ) + 1)) = V := min_eq_left (by simpa using hVC)
        rw [this]; exact h2
      · refine h3.trans (hmono ?_)
        simpa using hVC
    | succ k =>
      have hst : SagaAfter P pen f M R D step Fs (min V (2 * C / (k + 1))) st := hst
      obtain ⟨st', Q, Qp, G, hrun, hQ, hQp, hG0, hG, hVa, hd, hgap, hnext, hch⟩ := saga_later hp hq hP hok hstep hs1 hmin st hst (horder (k + 1))
      have hBp : 0 < 1 / (step * D) := by positivity
      have hdec : vrObj P pen f st'.x - Fs + 1 / (step * D) / 4 * Q ≤ vrObj P pen f st.x - Fs + 1 / (step * D) / 4 * Qp := by
        nlinarith [mul_nonneg hBp.le hQ, mul_nonneg hBp.le hQp]
      have hVa1 := hVa.trans (min_le_left _ _)
      have hrad' : ‖euc st'.x - euc xs‖ ≤ r0 := by
        have h1 : sqDist st'.x xs ≤ r0 ^ 2 := hrad _ (by
          have := mul_nonneg hBp.le hQ
          rw [hV] at hVa1; linarith)
        have e : ‖euc st'.x - euc xs‖ ^ 2 = sqDist st'.x xs := norm_euc_sq fun c => st'.x c - xs c
        rw [← e] at h1
        exact (abs_le_of_sq_le_sq' h1 hr0).2
      have hsub := saga_pass_sublinear hstep hD1 hQ hQp hd hG0 hG (norm_nonneg _) hrad' (hgap xs) (hmin st'.x) hVa1
      refine ⟨st', hrun, hnext _ (le_min (hdec.trans hVa1) ?_), hch.trans (hmono (by simp))⟩
      have h0 : 0 ≤ vrObj P pen f st'.x - Fs + 1 / (step * D) / 4 * Q := by
        have := hmin st'.x
        have := mul_nonneg hBp.le hQ
        linarith
      have := sublinear_step hC0 h0 hsub (hVa.trans (min_le_right _ _))
      push_cast
      have e : (k : ℝ) + 1 + 1 = k + 2 := by ring
      rw [e]; exact this
  obtain ⟨r, hr, -, h2, h3, h4, h5⟩ := sagaLoop_inv I _ hlift k 0 (sagaInit P) rfl
  refine ⟨r, minimizeSaga_of_loop hp hq hP hss hS hok hk hr, ?_, fun hs => ?_⟩
  · have h3 : SagaAfter P pen f M R D step Fs (min V (2 * C / (r.nit + 1))) r.final := h3
    obtain ⟨-, Wp, Qp, -, hQp, -, -, hb⟩ := h3
    rw [h4]
    have : 0 ≤ 1 / (step * D) / 4 * Qp := by positivity
    have := hb.trans (min_le_right _ _)
    linarith
  · obtain ⟨k1, k2⟩ := h5 hs
    exact ⟨by omega, k2⟩

/-- **C99 (SVRG).** The same for `minimize_svrg`, when every sample stores all the features of the blocks it touches. -/
theorem C99_svrg_sublinear (hp : 0 < p) (hP : P.Good) (hq : PenProblem P pen f M R D) (hfull : FullBlocks P) {step : ℝ} (hss : P.stepSize = some step)
    (hstep : 0 < step) (hs1 : 10 * n * (M * R + P.alpha) * (step * D) ≤ 1) {xs : Fin p → ℝ} (hmin : ∀ y, vrObj P pen f xs ≤ vrObj P pen f y)
    (horder : ∀ k, (P.order k).Perm (List.range n)) (hmax : 0 < P.maxIter) {r0 : ℝ} (hr0 : 0 ≤ r0)
    (hrad : ∀ y, vrObj P pen f y ≤ vrObj P pen f P.x0 → sqDist y xs ≤ r0 ^ 2) : ∃ r, minimizeSvrg P = .ok r ∧
      vrObj P pen f r.x - vrObj P pen f xs ≤ 2 * (8 * r0 ^ 2 * D / step + (vrObj P pen f P.x0 - vrObj P pen f xs)) / (r.nit + 2) ∧
      (r.success = false → r.nit + 1 = P.maxIter ∧ P.tol ≤ √(p * n * (2 * (step * D) *
        (2 * (8 * r0 ^ 2 * D / step + (vrObj P pen f P.x0 - vrObj P pen f xs)) / (r.nit + 1))))) := by
  obtain ⟨S, hS, hok⟩ := hP.support
  have hD1 := hq.D_one hP hp
  have hL : 0 ≤ M * R + P.alpha := add_nonneg (mul_nonneg hq.nonneg hq.R_nonneg) hq.alpha
  set Fs := vrObj P pen f xs with hFsdef
  set V := vrObj P pen f P.x0 - Fs with hV
  have hV0 : 0 ≤ V := by have := hmin P.x0; linarith
  set C := 8 * r0 ^ 2 * D / step + V with hC
  have hC0 : 0 ≤ C := by
    have : 0 ≤ 8 * r0 ^ 2 * D / step := by positivity
    linarith
  have hVC : V ≤ 2 * C := by
    have : 0 ≤ 8 * r0 ^ 2 * D / step := by positivity
    linarith
  obtain ⟨k, hk⟩ : ∃ k, P.maxIter = k + 1 := ⟨P.maxIter - 1, by omega⟩
  let I : ℕ → SvrgState ℝ p → Prop := fun k st => vrObj P pen f st.x - Fs ≤ V ∧ vrObj P pen f st.x - Fs ≤ 2 * C / (k + 1)
  have hlift : ∀ k st, I k st → ∃ avg st', fullGrad P st.x = some avg ∧ svrgEpoch P S step st.x avg st (P.order k) = some st' ∧ I (k + 1) st' ∧
      ∑ c, |st'.x c - st.x c| ≤ √(p * n * (2 * (step * D) * (2 * C / (k + 1)))) := by
    intro k st hst
    obtain ⟨avg, st', x, u, T, havg, hrun, hx0, hxn, hB, hall, herr⟩ := svrg_blockPass hq hP hfull hok hstep st (horder k)
    have hdesc := hB.pass_descent hq.samples hL hD1 hs1 (Wp := 0) (Qp := 0) (m := 0) (by simp) (fun k hk => by have := herr k hk; simpa using this)
    obtain ⟨G, hG0, hG, hgap⟩ := hB.pass_gap hq.samples hL hD1 hs1 hall (Wp := 0) (Qp := 0) (by simp) herr
    rw [hx0, hxn] at hdesc
    rw [hxn] at hgap
    rw [add_zero] at hG
    have hQ := passSq_nonneg x n
    have hBp : 0 < 1 / (step * D) := by positivity
    have hd : vrObj P pen f st'.x + 1 / (step * D) / 2 * passSq x n ≤ vrObj P pen f st.x := by
      unfold vrObj
      simp only [ne_eq, OfNat.ofNat_ne_zero, not_false_eq_true, zero_pow, mul_zero, add_zero] at hdesc
      linarith
    have hle : vrObj P pen f st'.x ≤ vrObj P pen f st.x := by
      have := mul_nonneg hBp.le hQ
      linarith
    have hrad' : ‖euc st'.x - euc xs‖ ≤ r0 := by
      have h1 : sqDist st'.x xs ≤ r0 ^ 2 := hrad _ (by
        have := hst.1
        rw [hV] at this; linarith)
      have e : ‖euc st'.x - euc xs‖ ^ 2 = sqDist st'.x xs := norm_euc_sq fun c => st'.x c - xs c
      rw [← e] at h1
      exact (abs_le_of_sq_le_sq' h1 hr0).2
    have hsub := svrg_pass_sublinear hstep hD1 hQ hd hG0 hG (norm_nonneg _) hrad' (hgap xs) (hmin st'.x) hV0
    refine ⟨avg, st', havg, hrun, ⟨by have := hst.1; linarith, ?_⟩, change_le x hx0 hxn ?_⟩
    · have := sublinear_step hC0 (sub_nonneg.mpr (hmin st'.x)) hsub hst.2
      push_cast
      have e : (k : ℝ) + 1 + 1 = k + 2 := by ring
      rw [e]; exact this
    · have h1 : 1 / (step * D) / 2 * passSq x n ≤ 2 * C / (k + 1) := by
        have := hmin st'.x
        have := hst.2
        linarith
      have h2 : passSq x n = 2 * (step * D) * (1 / (step * D) / 2 * passSq x n) := by field_simp
      rw [h2]
      exact mul_le_mul_of_nonneg_left h1 (by positivity)
  obtain ⟨r, hr, -, h2, h3, h4, h5⟩ := svrgLoop_inv I _ hlift k 0 { x := P.x0, tmp := fun _ => 0 } ⟨le_rfl, by rw [Nat.cast_zero, zero_add, div_one]; exact hVC⟩
  refine ⟨r, minimizeSvrg_of_loop hp hq hP hss hS hok hk hr, ?_, fun hs => ?_⟩
  · have h3 := h3.2
    push_cast at h3
    rw [h4]
    have e : (r.nit : ℝ) + 1 + 1 = r.nit + 2 := by ring
    rw [e] at h3; exact h3
  · obtain ⟨k1, k2⟩ := h5 hs
    exact ⟨by omega, k2⟩

end Runs

/-! ### A lasso problem meets the hypotheses -/

noncomputable def exPen : VRArgs ℝ 2 2 :=
  { A := exA, b := ![3, 1], deriv := fun t b => t - b, alpha := 0, x0 := ![0, 0], stepSize := some (1 / 40),
    blocks := BlockMat.eye 2, prox := L1Norm.sparse (1 / 2), maxIter := 5, tol := 1, order := fun k => if k % 2 = 0 then [0, 1] else [1, 0] }

theorem exPen_problem : PenProblem exPen (l1Pen (1 / 2)) (fun t b => (t - b) ^ 2 / 2) 1 1 2 := by
  have htouch : ∀ h : Fin 2, Touches exA.indptr exA.indices (BlockMat.eye 2).ptr h h := fun h =>
    ⟨h.val, ⟨h, by fin_cases h <;> simp [exA], by fin_cases h <;> simp [exA], by fin_cases h <;> simp [exA]⟩, le_refl _, Nat.lt_succ_self _⟩
  refine ⟨by norm_num, l1Pen_ok _ (by norm_num), l1_isBlockProx _ (by norm_num), fun t b => ?_, fun b s t h => ?_, by norm_num, fun s t b => ?_, fun i => ?_,
    fun h => ⟨h, htouch h⟩, fun h T hT => ?_, le_refl _⟩
  · have h1 := (((hasDerivAt_id t).sub_const b).pow 2).div_const 2
    have e : (2 : ℕ) * (id t - b) ^ (2 - 1) * 1 / 2 = exPen.deriv t b := by simp [exPen]
    rw [e] at h1
    exact h1
  · simpa [exPen] using h
  · simp [exPen]
  · show ∑ c : Fin 2, exA.ent i c ^ 2 ≤ 1
    simp only [exA_ent, Fin.sum_univ_two]
    fin_cases i <;> simp
  · have hpos : 1 ≤ T.card := Finset.card_pos.mpr ⟨h, (hT h).mpr (htouch h)⟩
    have : (1 : ℝ) ≤ T.card := by exact_mod_cast hpos
    push_cast; linarith

theorem exPen_good : exPen.Good := ⟨exA_good, exA_nodup, goodBlocks_eye 2⟩

theorem exPen_order (k : ℕ) : (exPen.order k).Perm (List.range 2) := by
  show (if k % 2 = 0 then [0, 1] else [1, 0]).Perm (List.range 2)
  split <;> decide

theorem exPen_obj (y : Fin 2 → ℝ) : vrObj exPen (l1Pen (1 / 2)) (fun t b => (t - b) ^ 2 / 2) y =
    ((y 0 - 3) ^ 2 + (y 1 - 1) ^ 2) / 4 + (|y 0| + |y 1|) / 2 := by
  show finiteSum (fun i (c : Fin 2) => exA.ent i c) ![3, 1] (fun t b => (t - b) ^ 2 / 2) 0 y + ∑ h : Fin 2, (1 / 2 * |y h| : ℝ) = _
  unfold finiteSum
  simp only [exA_ent, Fin.sum_univ_two]
  norm_num
  ring

theorem exPen_grow (y : Fin 2 → ℝ) : vrObj exPen (l1Pen (1 / 2)) (fun t b => (t - b) ^ 2 / 2) ![2, 0] + 1 / 2 / 2 * sqDist y ![2, 0] ≤
    vrObj exPen (l1Pen (1 / 2)) (fun t b => (t - b) ^ 2 / 2) y := by
  rw [exPen_obj, exPen_obj]
  unfold sqDist
  simp only [Fin.sum_univ_two, Matrix.cons_val_zero, Matrix.cons_val_one, abs_zero]
  have h1 := le_abs_self (y 0)
  have h2 := le_abs_self (y 1)
  rw [abs_of_pos (by norm_num : (0 : ℝ) < 2)]
  nlinarith

theorem exPen_m (j : Fin 2) : |exPen.deriv (∑ c : Fin 2, exPen.A.ent j c * exPen.x0 c) (exPen.b j)| * √(∑ c : Fin 2, exPen.A.ent j c ^ 2) ≤ 3 := by
  show |(∑ c : Fin 2, exA.ent j c * (![0, 0] : Fin 2 → ℝ) c) - (![3, 1] : Fin 2 → ℝ) j| * √(∑ c : Fin 2, exA.ent j c ^ 2) ≤ 3
  simp only [exA_ent, Fin.sum_univ_two]
  fin_cases j <;> norm_num

example : ∃ r, minimizeSaga exPen = .ok r ∧
    (6401 / 6400 : ℝ) ^ r.nit * (vrObj exPen (l1Pen (1 / 2)) (fun t b => (t - b) ^ 2 / 2) r.x - 3 / 2) ≤ 41 / 5 := by
  obtain ⟨r, h1, h2, -⟩ := C98_saga_penalised (by norm_num) exPen_good exPen_problem (step := 1 / 40) rfl (by norm_num) (by norm_num [exPen])
    (mu := 1 / 2) (by norm_num) (by norm_num [exPen]) exPen_grow exPen_order (by simp [exPen]) 3 (by norm_num) exPen_m
  refine ⟨r, h1, ?_⟩
  have e1 : vrObj exPen (l1Pen (1 / 2)) (fun t b => (t - b) ^ 2 / 2) ![2, 0] = 3 / 2 := by rw [exPen_obj]; norm_num
  have e2 : vrObj exPen (l1Pen (1 / 2)) (fun t b => (t - b) ^ 2 / 2) exPen.x0 = 5 / 2 := by rw [exPen_obj]; norm_num [exPen]
  rw [e1, e2] at h2
  norm_num at h2 ⊢
  exact h2

example : ∃ r, minimizeSvrg exPen = .ok r ∧
    (3201 / 3200 : ℝ) ^ (r.nit + 1) * (vrObj exPen (l1Pen (1 / 2)) (fun t b => (t - b) ^ 2 / 2) r.x - 3 / 2) ≤ 1 := by
  obtain ⟨r, h1, h2, -⟩ := C98_svrg_penalised (by norm_num) exPen_good exPen_problem (fullBlocks_eye _ rfl) (step := 1 / 40) rfl (by norm_num)
    (by norm_num [exPen]) (mu := 1 / 2) (by norm_num) exPen_grow exPen_order (by simp [exPen])
  refine ⟨r, h1, ?_⟩
  have e1 : vrObj exPen (l1Pen (1 / 2)) (fun t b => (t - b) ^ 2 / 2) ![2, 0] = 3 / 2 := by rw [exPen_obj]; norm_num
  have e2 : vrObj exPen (l1Pen (1 / 2)) (fun t b => (t - b) ^ 2 / 2) exPen.x0 = 5 / 2 := by rw [exPen_obj]; norm_num [exPen]
  rw [e1, e2] at h2
  norm_num at h2 ⊢
  exact h2

theorem exPen_min (y : Fin 2 → ℝ) : vrObj exPen (l1Pen (1 / 2)) (fun t b => (t - b) ^ 2 / 2) ![2, 0] ≤
    vrObj exPen (l1Pen (1 / 2)) (fun t b => (t - b) ^ 2 / 2) y := by
  have := exPen_grow y
  have h0 : 0 ≤ sqDist y ![2, 0] := Finset.sum_nonneg fun c _ => sq_nonneg _
  linarith

example : ∃ r, minimizeSaga exPen = .ok r ∧
    vrObj exPen (l1Pen (1 / 2)) (fun t b => (t - b) ^ 2 / 2) r.x - 3 / 2 ≤ 2 * (92160 + 82 / 5) / (r.nit + 1) := by
  have e1 : vrObj exPen (l1Pen (1 / 2)) (fun t b => (t - b) ^ 2 / 2) ![2, 0] = 3 / 2 := by rw [exPen_obj]; norm_num
  have e2 : vrObj exPen (l1Pen (1 / 2)) (fun t b => (t - b) ^ 2 / 2) exPen.x0 = 5 / 2 := by rw [exPen_obj]; norm_num [exPen]
  obtain ⟨r, h1, h2, -⟩ := C99_saga_sublinear (by norm_num) exPen_good exPen_problem (step := 1 / 40) rfl (by norm_num) (by norm_num [exPen])
    exPen_min exPen_order (by simp [exPen]) 3 (by norm_num) exPen_m (r0 := 6) (by norm_num) (fun y hy => by
      have := exPen_grow y
      rw [e1] at this
      rw [e2] at hy
      norm_num at hy ⊢
      linarith)
  refine ⟨r, h1, ?_⟩
  rw [e1, e2] at h2
  norm_num at h2 ⊢
  exact h2

example : ∃ r, minimizeSvrg exPen = .ok r ∧
    vrObj exPen (l1Pen (1 / 2)) (fun t b => (t - b) ^ 2 / 2) r.x - 3 / 2 ≤ 2 * (2560 + 1) / (r.nit + 2) := by
  have e1 : vrObj exPen (l1Pen (1 / 2)) (fun t b => (t - b) ^ 2 / 2) ![2, 0] = 3 / 2 := by rw [exPen_obj]; norm_num
  have e2 : vrObj exPen (l1Pen (1 / 2)) (fun t b => (t - b) ^ 2 / 2) exPen.x0 = 5 / 2 := by rw [exPen_obj]; norm_num [exPen]
  obtain ⟨r, h1, h2, -⟩ := C99_svrg_sublinear (by norm_num) exPen_good exPen_problem (fullBlocks_eye _ rfl) (step := 1 / 40) rfl (by norm_num)
    (by norm_num [exPen]) exPen_min exPen_order (by simp [exPen]) (r0 := 2) (by norm_num) (fun y hy => by
      have := exPen_grow y
      rw [e1] at this
      rw [e2] at hy
      linarith)
  refine ⟨r, h1, ?_⟩
  rw [e1, e2] at h2
  norm_num at h2 ⊢
  exact h2

end Copt
