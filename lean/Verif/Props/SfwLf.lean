import Verif.Props.SfwRuns

/-!
# C106 for the variant 'LF', and convergence of every variant

The array `agg` of the LF variant holds for each sample a prediction `⟨A_i, y_i⟩` of a point `y_i` of the set that lags behind the iterate; the lag is bounded in the
mean square.  The dual variables start at `0`, not at the derivative of `agg`; `lfRest` is the error of the samples never drawn.
-/

set_option linter.unusedSectionVars false

namespace Copt

open Spec

variable {n p : ℕ} {V : Type} [DecidableEq V] {P : SfwArgs ℝ n p V} {C : Set (Fin p → ℝ)} {phi : ℝ → ℝ → ℝ} {l D : ℝ}

/-! ### The LF variant -/

/-- What is kept along a run of the LF variant. -/
structure LfInv (P : SfwArgs ℝ n p V) (C : Set (Fin p → ℝ)) (st : SfwState ℝ n p V) : Prop extends SfwInv P C st where
  sigma : ∀ j, ∃ y ∈ C, st.sigma j = sfwDot P y j

/-- The lag of the smoothed predictions. -/
noncomputable def lfLag (P : SfwArgs ℝ n p V) (st : SfwState ℝ n p V) (j : Fin n) : ℝ := sfwDot P st.x j - st.sigma j

/-- The error of the dual variables with respect to the smoothed predictions: that of the samples never drawn. -/
noncomputable def lfRest (P : SfwArgs ℝ n p V) (st : SfwState ℝ n p V) (j : Fin n) : ℝ := |P.deriv (st.sigma j) (P.b j) - n * st.dual j|

/-- The step of the smoothed predictions. -/
noncomputable def lfAgg (m : ℝ) (t : ℕ) : ℝ := 2 * m / (2 * m + t + 1)

theorem lf_step (hreg : SfwRegular P C phi l D) (t : ℕ) {st : SfwState ℝ n p V} (hst : LfInv P C st) :
    ∃ Δ : Fin n → ℝ, (∀ j, |Δ j| ≤ D) ∧ ∀ batch : List (Fin n), batch.Nodup → ∃ st', sfwStep P .LF t st batch = .ok (some st') ∧ LfInv P C st' ∧
      (∀ z ∈ C, sfwObj P phi st'.x - sfwObj P phi z ≤ (1 - sfwGamma P .LF t) * (sfwObj P phi st.x - sfwObj P phi z) +
        sfwGamma P .LF t * (D / n * ∑ j, (l * |lfLag P st j| + lfRest P st j)) + l * sfwGamma P .LF t ^ 2 * D ^ 2 / 2) ∧
      (∀ j, lfLag P st' j = if j ∈ batch then (1 - lfAgg (n / P.batchSize) t) * lfLag P st j + (sfwGamma P .LF t - lfAgg (n / P.batchSize) t) * Δ j
        else lfLag P st j + sfwGamma P .LF t * Δ j) ∧
      (∀ j, lfRest P st' j = if j ∈ batch then 0 else lfRest P st j) := by
  have hn : (0 : ℝ) < n := by exact_mod_cast hreg.samples
  have hvan : IsVanillaLmo C P.lmo := fun u x => by
    obtain ⟨-, -, s, hs, hd, -⟩ := hreg.lmo u x
    exact ⟨s, hs, hd⟩
  obtain ⟨s, hs, hdir, hopt⟩ := (hreg.lmo (fun c => -st.gradAgg c) st.x).2.2
  obtain ⟨-, g, hg2, hg0, hg1⟩ := C64_step_sizes P.cbrtSq t n P.batchSize hreg.batch hreg.batch_le
  have hgv : g = lfAgg (n / P.batchSize) t := by
    simp only [stepSizeSfw, Option.some.injEq] at hg2
    rw [← hg2, lfAgg]
  -- what a step does, whatever the batch
  have hany : ∀ (batch : List (Fin n)) st', sfwStep P .LF t st batch = .ok (some st') →
      st'.x = (fun c => st.x c + sfwGamma P .LF t * (s c - st.x c)) ∧
      st'.sigma = assignAt st.sigma batch (fun i => st.sigma i + g * (sfwDot P s i - st.sigma i)) ∧
      st'.dual = assignAt st.dual batch (fun i => 1 / (n : ℝ) * P.deriv (st'.sigma i) (P.b i)) ∧
      st'.gradAgg = fun c => st.gradAgg c + sfwDelta P batch st.dual st'.dual c := by
    intro batch st' hstep
    obtain ⟨-, d, γ, act, hd, hγ, -, -, rfl⟩ := sfwStep_ok hstep
    have hγ : γ = sfwGamma P .LF t := hγ hreg.step
    rw [if_neg (by rw [hreg.step]; simp), hg2] at hd
    simp only [sfwDual, Except.ok.injEq] at hd
    have hextr : (fun c => (P.lmo (fun c => -st.gradAgg c) st.x st.active).dir c + st.x c) = s := by
      rw [hst.active, hdir]
      funext c
      ring
    rw [hextr] at hd
    refine ⟨?_, ?_, ?_, rfl⟩
    · show (fun c => st.x c + γ * (P.lmo (fun c => -st.gradAgg c) st.x st.active).dir c) = _
      rw [hst.active, hdir, hγ]
    · rw [← hd]
    · rw [← hd]
  refine ⟨fun j => sfwDot P s j - sfwDot P st.x j, fun j => hreg.diam s hs st.x hst.mem j, fun batch hnd => ?_⟩
  obtain ⟨st', hstep, hmem, hact⟩ := C65_step P .LF C hreg.conv hvan hreg.step hreg.batch hreg.batch_le t st hst.active hst.mem batch
  obtain ⟨hx', hsig, hdual, hagg⟩ := hany batch st' hstep
  refine ⟨st', hstep, ⟨⟨hmem, hact, fun c => ?_⟩, fun j => ?_⟩, ?_, ?_, ?_⟩
  · rw [hagg]
    simp only
    rw [hst.agg, sfwDelta_eq P hnd st.dual st'.dual (fun i hi => by rw [hdual]; exact if_neg hi), ← Finset.sum_add_distrib]
    exact Finset.sum_congr rfl fun i _ => by ring
  · rw [hsig]
    unfold assignAt
    obtain ⟨y, hy, hyj⟩ := hst.sigma j
    split
    · refine ⟨_, hreg.conv y hy s hs g hg0.le hg1.le, ?_⟩
      have := sfwDot_comb P y s g j
      rw [show (fun c => (1 - g) * y c + g * s c) = fun c => y c + g * (s c - y c) by funext c; ring, this, ← hyj]
    · exact ⟨y, hy, hyj⟩
  · intro z hz
    have h1 : ∑ c, -(∑ j, st.dual j * P.a j c) * z c ≤ ∑ c, -(∑ j, st.dual j * P.a j c) * s c := by
      have := hopt z hz
      simp only [hst.agg] at this
      exact this
    have h2 := sfw_descent hreg hst.mem hz hs (κ := n) hn.le h1 (C64_step_sizes P.cbrtSq t n P.batchSize hreg.batch hreg.batch_le |>.1 .LF).1.le
    rw [hx']
    refine h2.trans ?_
    have hD : 0 ≤ D := (abs_nonneg _).trans (hreg.diam _ hz _ hz ⟨0, hreg.samples⟩)
    have h3 : ∑ j, |P.deriv (sfwDot P st.x j) (P.b j) - n * st.dual j| ≤ ∑ j, (l * |lfLag P st j| + lfRest P st j) := by
      refine Finset.sum_le_sum fun j _ => ?_
      refine (abs_sub_le _ (P.deriv (st.sigma j) (P.b j)) _).trans ?_
      exact add_le_add (hreg.lip _ _ _) (le_refl _)
    have h4 := mul_le_mul_of_nonneg_left (mul_le_mul_of_nonneg_left h3 (div_nonneg hD hn.le))
      (C64_step_sizes P.cbrtSq t n P.batchSize hreg.batch hreg.batch_le |>.1 .LF).1.le
    have e : (stepSizeSfw P.cbrtSq .LF t n P.batchSize).1 = sfwGamma P .LF t := rfl
    rw [e] at h4 ⊢
    linarith
  · intro j
    unfold lfLag
    rw [hx', sfwDot_comb, hsig, ← hgv]
    unfold assignAt
    split <;> ring
  · intro j
    unfold lfRest
    rw [hdual]
    by_cases hj : j ∈ batch
    · rw [if_pos hj]
      simp only [assignAt, if_pos hj]
      rw [← mul_assoc, mul_one_div_cancel hn.ne', one_mul, sub_self, abs_zero]
    · rw [if_neg hj, hsig]
      simp only [assignAt, if_neg hj]

/-- The mean square of the lag of one sample after a step. -/
theorem lf_lag_sq {e Δ D q g γ : ℝ} (he : |e| ≤ D) (hΔ : |Δ| ≤ D) (hq0 : 0 ≤ q) (hq1 : q ≤ 1) (hg0 : 0 ≤ g) (hg1 : g ≤ 1) (hγ : q * g ≤ γ) :
    (1 - q) * (e + γ * Δ) ^ 2 + q * ((1 - g) * e + (γ - g) * Δ) ^ 2 ≤ (1 - q * g) * e ^ 2 + D ^ 2 * (2 * (γ - q * g) + 3 * (q * g ^ 2) + γ ^ 2) := by
  have hD : 0 ≤ D := (abs_nonneg _).trans he
  have hqg : 0 ≤ q * g := mul_nonneg hq0 hg0
  have hγ0 : 0 ≤ γ := hqg.trans hγ
  have hk : 0 ≤ γ - q * g - q * g * γ + q * g ^ 2 := by
    have h1 : q * g * (1 - q * g) ≤ γ * (1 - q * g) := mul_le_mul_of_nonneg_right hγ (by nlinarith [mul_le_one₀ hq1 hg0 hg1])
    have h2 : 0 ≤ q * g ^ 2 * (1 - q) := mul_nonneg (by positivity) (by linarith)
    nlinarith
  have heΔ : e * Δ ≤ D ^ 2 := by
    calc e * Δ ≤ |e * Δ| := le_abs_self _
      _ = |e| * |Δ| := abs_mul _ _
      _ ≤ D * D := mul_le_mul he hΔ (abs_nonneg _) hD
      _ = D ^ 2 := by ring
  have hΔ2 : Δ ^ 2 ≤ D ^ 2 := sq_le_sq' (by linarith [(abs_le.mp hΔ).1]) (abs_le.mp hΔ).2
  have h1 := mul_le_mul_of_nonneg_left heΔ (mul_nonneg zero_le_two hk)
  have hs : 0 ≤ γ ^ 2 - 2 * (q * g) * γ + q * g ^ 2 := by nlinarith [sq_nonneg (γ - q * g), mul_nonneg hq0 (sq_nonneg g), mul_nonneg (mul_nonneg hq0 (sq_nonneg g)) (sub_nonneg.mpr hq1)]
  have h2 := mul_le_mul_of_nonneg_left hΔ2 hs
  have h3 : 0 ≤ q * (g - g ^ 2) * e ^ 2 := mul_nonneg (mul_nonneg hq0 (by nlinarith)) (sq_nonneg e)
  have hD2 := sq_nonneg D
  have h4 : 0 ≤ D ^ 2 * (2 * (q * g * γ) + 2 * (q * g) * γ) := by positivity
  have expand : (1 - q) * (e + γ * Δ) ^ 2 + q * ((1 - g) * e + (γ - g) * Δ) ^ 2 = (1 - q * g) * e ^ 2 - q * (g - g ^ 2) * e ^ 2 +
      2 * (γ - q * g - q * g * γ + q * g ^ 2) * (e * Δ) + (γ ^ 2 - 2 * (q * g) * γ + q * g ^ 2) * Δ ^ 2 := by ring
  rw [expand]
  nlinarith

/-- The step sizes of the LF variant. -/
theorem lf_steps (hreg : SfwRegular P C phi l D) {m : ℝ} (hm : m = n / P.batchSize) (t : ℕ) :
    1 ≤ m ∧ (P.batchSize : ℝ) / n = 1 / m ∧ sfwGamma P .LF t = 2 * (2 * m + t) / (((t : ℝ) + 1) * (4 * m + t)) ∧ 0 < lfAgg m t ∧ lfAgg m t ≤ 1 ∧
      1 / m * lfAgg m t = 2 / (2 * m + t + 1) ∧
      sfwGamma P .LF t - 1 / m * lfAgg m t = 4 * m * (2 * m - 1) / (((t : ℝ) + 1) * (4 * m + t) * (2 * m + t + 1)) := by
  have hn : (0 : ℝ) < n := by exact_mod_cast hreg.samples
  have hb : (0 : ℝ) < P.batchSize := by exact_mod_cast hreg.batch
  have hm1 : 1 ≤ m := by
    rw [hm, le_div_iff₀ hb, one_mul]
    exact_mod_cast hreg.batch_le
  have ht : (0 : ℝ) ≤ t := Nat.cast_nonneg t
  have hm0 : 0 < m := by linarith
  have hγ : sfwGamma P .LF t = 2 * (2 * m + t) / (((t : ℝ) + 1) * (4 * m + t)) := by rw [hm]; rfl
  refine ⟨hm1, by rw [hm, one_div_div], hγ, ?_, ?_, ?_, ?_⟩
  · unfold lfAgg; positivity
  · unfold lfAgg
    rw [div_le_one (by positivity)]
    linarith
  · unfold lfAgg
    field_simp
  · rw [hγ]
    unfold lfAgg
    field_simp
    ring

theorem lf_mean_step (hreg : SfwRegular P C phi l D) {m : ℝ} (hm : m = n / P.batchSize) (t : ℕ) {st : SfwState ℝ n p V} (hst : LfInv P C st) :
    ∃ s : (Fin P.batchSize ↪ Fin n) → SfwState ℝ n p V,
      (∀ e : Fin P.batchSize ↪ Fin n, sfwStep P .LF t st (List.ofFn e) = .ok (some (s e)) ∧ LfInv P C (s e)) ∧
      (∀ e, ∀ z ∈ C, sfwObj P phi (s e).x - sfwObj P phi z ≤ (1 - sfwGamma P .LF t) * (sfwObj P phi st.x - sfwObj P phi z) +
        sfwGamma P .LF t * (D / n * ∑ j, (l * |lfLag P st j| + lfRest P st j)) + l * sfwGamma P .LF t ^ 2 * D ^ 2 / 2) ∧
      ∑ e, ∑ j, lfLag P (s e) j ^ 2 ≤ Fintype.card (Fin P.batchSize ↪ Fin n) * ((1 - 1 / m * lfAgg m t) * ∑ j, lfLag P st j ^ 2 +
        n * (D ^ 2 * (2 * (sfwGamma P .LF t - 1 / m * lfAgg m t) + 3 * (1 / m * lfAgg m t ^ 2) + sfwGamma P .LF t ^ 2))) ∧
      ∑ e, ∑ j, lfRest P (s e) j = Fintype.card (Fin P.batchSize ↪ Fin n) * ((1 - 1 / m) * ∑ j, lfRest P st j) := by
  have hn : (0 : ℝ) < n := by exact_mod_cast hreg.samples
  obtain ⟨hm1, hq, hγ, hg0, hg1, hqg, hgap⟩ := lf_steps hreg hm t
  have hm0 : 0 < m := by linarith
  obtain ⟨Δ, hΔ, hb⟩ := lf_step hreg t hst
  choose s h1 h2 h3 h4 h5 using fun e : Fin P.batchSize ↪ Fin n => hb (List.ofFn e) (List.nodup_ofFn.mpr e.injective)
  rw [← hm] at h4
  refine ⟨s, fun e => ⟨h1 e, h2 e⟩, h3, ?_, ?_⟩
  · set g := lfAgg m t with hg
    set γ := sfwGamma P .LF t with hγd
    set e := lfLag P st with he
    set N : ℝ := (Fintype.card (Fin P.batchSize ↪ Fin n) : ℝ) with hN
    have hN0 : 0 ≤ N := Nat.cast_nonneg _
    have hsq : ∀ b j, lfLag P (s b) j ^ 2 = (e j + γ * Δ j) ^ 2 + if j ∈ List.ofFn b then ((1 - g) * e j + (γ - g) * Δ j) ^ 2 - (e j + γ * Δ j) ^ 2 else 0 := by
      intro b j
      rw [h4]
      split <;> ring
    have hmem := sum_embed_mem (b := P.batchSize) hreg.samples (fun j => ((1 - g) * e j + (γ - g) * Δ j) ^ 2 - (e j + γ * Δ j) ^ 2)
    simp only [hsq, Finset.sum_add_distrib, hmem, hq]
    rw [Finset.sum_const, Finset.card_univ, nsmul_eq_mul, ← hN]
    have hlag : ∀ j, |e j| ≤ D := by
      intro j
      obtain ⟨y, hy, hyj⟩ := hst.sigma j
      rw [he]
      unfold lfLag
      rw [hyj]
      exact hreg.diam _ hst.mem y hy j
    have hγq : 1 / m * g ≤ γ := by
      have : 0 ≤ 4 * m * (2 * m - 1) / (((t : ℝ) + 1) * (4 * m + t) * (2 * m + t + 1)) :=
        div_nonneg (mul_nonneg (by positivity) (by linarith)) (by positivity)
      linarith
    have hq1 : 1 / m ≤ 1 := by rw [div_le_one hm0]; exact hm1
    have hsum := Finset.sum_le_sum fun j (_ : j ∈ Finset.univ) => lf_lag_sq (hlag j) (hΔ j) (q := 1 / m) (by positivity) hq1 hg0.le hg1 hγq
    rw [Finset.sum_add_distrib, Finset.sum_add_distrib, ← Finset.mul_sum, ← Finset.mul_sum, ← Finset.mul_sum, Finset.sum_const, Finset.card_univ,
      Fintype.card_fin, nsmul_eq_mul] at hsum
    have := mul_le_mul_of_nonneg_left hsum hN0
    rw [Finset.sum_sub_distrib]
    linarith
  · have hr : ∀ b j, lfRest P (s b) j = lfRest P st j - if j ∈ List.ofFn b then lfRest P st j else 0 := by
      intro b j
      rw [h5]
      split <;> ring
    have hmem := sum_embed_mem (b := P.batchSize) hreg.samples (lfRest P st)
    simp only [hr, Finset.sum_sub_distrib, hmem, hq]
    rw [Finset.sum_const, Finset.card_univ, nsmul_eq_mul]
    ring

/-- The noise in the lag, weighted. -/
theorem lf_noise {m τ γ g : ℝ} (hm : 1 ≤ m) (hτ : 0 ≤ τ) (hγ : γ = 2 * (2 * m + τ) / ((τ + 1) * (4 * m + τ))) (hg : g = 2 * m / (2 * m + τ + 1))
    (hgap : γ - 1 / m * g = 4 * m * (2 * m - 1) / ((τ + 1) * (4 * m + τ) * (2 * m + τ + 1))) :
    (2 * m + τ) * (2 * m + τ + 1) * (2 * (γ - 1 / m * g) + 3 * (1 / m * g ^ 2) + γ ^ 2) ≤ 52 * m ^ 2 := by
  have hm0 : 0 < m := by linarith
  have hw : 0 < 2 * m + τ := by positivity
  have t1 : (2 * m + τ) * (2 * m + τ + 1) * (2 * (γ - 1 / m * g)) ≤ 16 * m ^ 2 := by
    rw [hgap]
    have e : (2 * m + τ) * (2 * m + τ + 1) * (2 * (4 * m * (2 * m - 1) / ((τ + 1) * (4 * m + τ) * (2 * m + τ + 1)))) =
        8 * m * (2 * m - 1) * (2 * m + τ) / ((τ + 1) * (4 * m + τ)) := by
      field_simp
      ring
    rw [e, div_le_iff₀ (by positivity)]
    have h1 : 8 * m * (2 * m - 1) * (2 * m + τ) ≤ 16 * m ^ 2 * (2 * m + τ) := mul_le_mul_of_nonneg_right (by nlinarith) hw.le
    have h2 : (2 * m + τ) ≤ (τ + 1) * (4 * m + τ) := by nlinarith
    have h3 := mul_le_mul_of_nonneg_left h2 (by positivity : 0 ≤ 16 * m ^ 2)
    linarith
  have t2 : (2 * m + τ) * (2 * m + τ + 1) * (3 * (1 / m * g ^ 2)) ≤ 12 * m ^ 2 := by
    have e : (2 * m + τ) * (2 * m + τ + 1) * (3 * (1 / m * g ^ 2)) = 12 * m * ((2 * m + τ) / (2 * m + τ + 1)) := by
      rw [hg]
      field_simp
      ring
    rw [e]
    have h1 : (2 * m + τ) / (2 * m + τ + 1) ≤ 1 := by rw [div_le_one (by positivity)]; linarith
    have h2 := mul_le_mul_of_nonneg_left h1 (by positivity : 0 ≤ 12 * m)
    nlinarith
  have t3 : (2 * m + τ) * (2 * m + τ + 1) * γ ^ 2 ≤ 24 * m ^ 2 := by
    have e : (2 * m + τ) * (2 * m + τ + 1) * γ ^ 2 = 4 * ((2 * m + τ) / (τ + 1)) * ((2 * m + τ + 1) / (τ + 1)) * ((2 * m + τ) / (4 * m + τ)) ^ 2 := by
      rw [hγ]
      field_simp
      ring
    rw [e]
    have h1 : (2 * m + τ) / (τ + 1) ≤ 2 * m := by rw [div_le_iff₀ (by positivity)]; nlinarith
    have h2 : (2 * m + τ + 1) / (τ + 1) ≤ 3 * m := by rw [div_le_iff₀ (by positivity)]; nlinarith
    have h3 : ((2 * m + τ) / (4 * m + τ)) ^ 2 ≤ 1 := pow_le_one₀ (by positivity) (by rw [div_le_one (by positivity)]; linarith)
    have h4 : 4 * ((2 * m + τ) / (τ + 1)) * ((2 * m + τ + 1) / (τ + 1)) ≤ 4 * (2 * m) * (3 * m) :=
      mul_le_mul (mul_le_mul_of_nonneg_left h1 (by norm_num)) h2 (by positivity) (by positivity)
    calc _ ≤ 4 * (2 * m) * (3 * m) * 1 := mul_le_mul h4 h3 (by positivity) (by positivity)
      _ = 24 * m ^ 2 := by ring
  nlinarith

/-- Splitting off the last draw. -/
theorem sum_snoc {E : Type} [Fintype E] (T : ℕ) (F : (Fin (T + 1) → E) → ℝ) : ∑ ws, F ws = ∑ ws : Fin T → E, ∑ e, F (Fin.snoc ws e) := by
  rw [Finset.sum_comm, ← Fintype.sum_prod_type']
  exact (Fintype.sum_equiv (Fin.snocEquiv fun _ => E) _ _ fun _ => rfl).symm

/-- The weighted objective after one step, for one history: `h` objective, `L` mean lag, `Q` mean square lag, `R` mean error of the samples never drawn. -/
theorem lf_history {m τ γ ρ l D h L Q R : ℝ} (hm : 1 ≤ m) (hτ : 0 ≤ τ) (hl : 0 ≤ l) (hD : 0 ≤ D) (hL : 0 ≤ L) (hR : 0 ≤ R)
    (hγ : γ = 2 * (2 * m + τ) / ((τ + 1) * (4 * m + τ))) (hρ0 : 0 < ρ) (hρ2 : ρ * ρ = τ + 1) (hlag : D * L ≤ ρ / (16 * m) * Q + 4 * m / ρ * D ^ 2) :
    (τ + 1) * (τ + 4 * m) * ((1 - γ) * h + γ * (D * (l * L + R)) + l * γ ^ 2 * D ^ 2 / 2) + 4 * m ^ 2 * D * (τ + 1 + m) * ((1 - 1 / m) * R) ≤
      (τ * (τ + 4 * m - 1) * h + 4 * m ^ 2 * D * (τ + m) * R) + (l * ρ * (τ + 1) / 4 * Q + l * D ^ 2 * (4 * m + 16 * m ^ 2 * ρ)) := by
  have hm0 : 0 < m := by linarith
  have hγa : (τ + 1) * (τ + 4 * m) * (1 - γ) = τ * (τ + 4 * m - 1) := by
    rw [hγ]
    field_simp
    ring
  have hγb : (τ + 1) * (τ + 4 * m) * γ = 2 * (2 * m + τ) := by
    rw [hγ]
    field_simp
    ring
  have hγc : (τ + 1) * (τ + 4 * m) * (l * γ ^ 2 * D ^ 2 / 2) ≤ l * D ^ 2 * (4 * m) := by
    have e : (τ + 1) * (τ + 4 * m) * (l * γ ^ 2 * D ^ 2 / 2) = l * D ^ 2 * (2 * ((2 * m + τ) / (τ + 1)) * ((2 * m + τ) / (4 * m + τ))) := by
      rw [hγ]
      field_simp
      ring
    rw [e]
    have b1 : (2 * m + τ) / (τ + 1) ≤ 2 * m := by rw [div_le_iff₀ (by positivity)]; nlinarith
    have b2 : (2 * m + τ) / (4 * m + τ) ≤ 1 := by rw [div_le_one (by positivity)]; linarith
    refine mul_le_mul_of_nonneg_left ?_ (by positivity)
    calc 2 * ((2 * m + τ) / (τ + 1)) * ((2 * m + τ) / (4 * m + τ)) ≤ 2 * (2 * m) * 1 :=
          mul_le_mul (mul_le_mul_of_nonneg_left b1 zero_le_two) b2 (by positivity) (by positivity)
      _ = 4 * m := by ring
  have hw2 : 2 * m + τ ≤ 2 * m * (τ + 1) := by nlinarith
  have e1 : (τ + 1) * (τ + 4 * m) * ((1 - γ) * h + γ * (D * (l * L + R)) + l * γ ^ 2 * D ^ 2 / 2) =
      ((τ + 1) * (τ + 4 * m) * (1 - γ)) * h + ((τ + 1) * (τ + 4 * m) * γ) * (l * (D * L) + D * R) + (τ + 1) * (τ + 4 * m) * (l * γ ^ 2 * D ^ 2 / 2) := by
    ring
  rw [e1, hγa, hγb]
  have b1 : 2 * (2 * m + τ) * (l * (D * L) + D * R) ≤ 2 * (2 * m * (τ + 1)) * (l * (ρ / (16 * m) * Q + 4 * m / ρ * D ^ 2) + D * R) :=
    mul_le_mul (by linarith) (add_le_add (mul_le_mul_of_nonneg_left hlag hl) (le_refl _)) (by positivity) (by positivity)
  have e2 : 2 * (2 * m * (τ + 1)) * (l * (ρ / (16 * m) * Q + 4 * m / ρ * D ^ 2) + D * R) =
      l * ρ * (τ + 1) / 4 * Q + l * D ^ 2 * (16 * m ^ 2 * ρ) + 4 * m * (τ + 1) * (D * R) := by
    have : (τ + 1) / ρ = ρ := by rw [div_eq_iff hρ0.ne']; exact hρ2.symm
    calc _ = l * ρ * (τ + 1) / 4 * Q * (m / m) + l * D ^ 2 * (16 * m ^ 2 * ((τ + 1) / ρ)) + 4 * m * (τ + 1) * (D * R) := by
          field_simp
          ring
      _ = _ := by rw [this, div_self hm0.ne', mul_one]
  have e3 : 4 * m ^ 2 * D * (τ + 1 + m) * ((1 - 1 / m) * R) + 4 * m * (τ + 1) * (D * R) = 4 * m ^ 2 * D * (τ + m) * R := by
    field_simp
    ring
  rw [e2] at b1
  linarith

/-- Young's inequality for the mean lag. -/
theorem lf_young {n : ℕ} (hn : 0 < n) (e : Fin n → ℝ) {m ρ D : ℝ} (hm : 0 < m) (hρ : 0 < ρ) :
    D * ((∑ j, |e j|) / n) ≤ ρ / (16 * m) * ((∑ j, e j ^ 2) / n) + 4 * m / ρ * D ^ 2 := by
  have hn' : (0 : ℝ) < n := by exact_mod_cast hn
  have hj : ∀ j, D * |e j| ≤ ρ / (16 * m) * e j ^ 2 + 4 * m / ρ * D ^ 2 := by
    intro j
    have hsq : 0 ≤ (ρ * |e j| - 8 * m * D) ^ 2 / (16 * m * ρ) := div_nonneg (sq_nonneg _) (by positivity)
    have e : ρ / (16 * m) * e j ^ 2 + 4 * m / ρ * D ^ 2 - D * |e j| = (ρ * |e j| - 8 * m * D) ^ 2 / (16 * m * ρ) := by
      rw [← sq_abs (e j)]
      field_simp
      ring
    linarith
  have := Finset.sum_le_sum fun j (_ : j ∈ Finset.univ) => hj j
  rw [← Finset.mul_sum, Finset.sum_add_distrib, ← Finset.mul_sum, Finset.sum_const, Finset.card_univ, Fintype.card_fin, nsmul_eq_mul] at this
  rw [mul_div_assoc', div_le_iff₀ hn']
  refine this.trans (le_of_eq ?_)
  field_simp

/-- The mean square lag. -/
theorem lf_lag_bound {m τ S A : ℝ} (hm : 1 ≤ m) (hτ : 0 ≤ τ) (hA : 0 ≤ A) (h : (2 * m + τ - 1) * (2 * m + τ) * S ≤ A * τ) : S * (τ + 1) ≤ A := by
  have hw : τ * (τ + 1) ≤ (2 * m + τ - 1) * (2 * m + τ) := by nlinarith
  have hw0 : 0 < (2 * m + τ - 1) * (2 * m + τ) := mul_pos (by linarith) (by linarith)
  refine le_of_mul_le_mul_left ?_ hw0
  calc (2 * m + τ - 1) * (2 * m + τ) * (S * (τ + 1)) = (2 * m + τ - 1) * (2 * m + τ) * S * (τ + 1) := by ring
    _ ≤ A * τ * (τ + 1) := mul_le_mul_of_nonneg_right h (by positivity)
    _ = A * (τ * (τ + 1)) := by ring
    _ ≤ A * ((2 * m + τ - 1) * (2 * m + τ)) := mul_le_mul_of_nonneg_left hw hA
    _ = _ := by ring

/-- Adding up. -/
theorem lf_total {m τ ρ l D S K X c0 n σ : ℝ} (hm : 1 ≤ m) (hτ : 0 ≤ τ) (hl : 0 ≤ l) (hn : 0 < n) (hK : 0 ≤ K) (hρ : 0 < ρ) (hσ : σ ≤ ρ)
    (hS : S * (τ + 1) ≤ K * (n * D ^ 2 * (52 * m ^ 2))) (hX : X ≤ K * (c0 + τ * (l * D ^ 2 * (4 * m + 32 * m ^ 2 * σ)))) :
    X + (l * ρ * (τ + 1) / 4 * (S / n) + K * (l * D ^ 2 * (4 * m + 16 * m ^ 2 * ρ))) ≤ K * (c0 + (τ + 1) * (l * D ^ 2 * (4 * m + 32 * m ^ 2 * ρ))) := by
  have c2 : l * ρ * (τ + 1) / 4 * (S / n) ≤ K * (l * D ^ 2 * (13 * m ^ 2 * ρ)) := by
    have e : l * ρ * (τ + 1) / 4 * (S / n) = l * ρ / (4 * n) * (S * (τ + 1)) := by
      field_simp
    rw [e]
    have := mul_le_mul_of_nonneg_left hS (by positivity : 0 ≤ l * ρ / (4 * n))
    refine this.trans (le_of_eq ?_)
    field_simp
    ring
  have c4 : τ * (l * D ^ 2 * (4 * m + 32 * m ^ 2 * σ)) ≤ τ * (l * D ^ 2 * (4 * m + 32 * m ^ 2 * ρ)) := by
    refine mul_le_mul_of_nonneg_left (mul_le_mul_of_nonneg_left ?_ (by positivity)) hτ
    have := mul_le_mul_of_nonneg_left hσ (by positivity : 0 ≤ 32 * m ^ 2)
    linarith
  have c5 := mul_le_mul_of_nonneg_left c4 hK
  have c6 : 0 ≤ K * (l * D ^ 2 * (3 * m ^ 2 * ρ)) := by positivity
  calc _ ≤ K * (c0 + τ * (l * D ^ 2 * (4 * m + 32 * m ^ 2 * σ))) + (K * (l * D ^ 2 * (13 * m ^ 2 * ρ)) + K * (l * D ^ 2 * (4 * m + 16 * m ^ 2 * ρ))) := by linarith
    _ ≤ K * c0 + K * (τ * (l * D ^ 2 * (4 * m + 32 * m ^ 2 * ρ))) + (K * (l * D ^ 2 * (13 * m ^ 2 * ρ)) + K * (l * D ^ 2 * (4 * m + 16 * m ^ 2 * ρ))) := by linarith
    _ ≤ K * c0 + K * (τ * (l * D ^ 2 * (4 * m + 32 * m ^ 2 * ρ))) + (K * (l * D ^ 2 * (13 * m ^ 2 * ρ)) + K * (l * D ^ 2 * (4 * m + 16 * m ^ 2 * ρ))) +
        K * (l * D ^ 2 * (3 * m ^ 2 * ρ)) := by linarith
    _ = _ := by ring

theorem lf_sum_split {ι : Type} [Fintype ι] (U W : ι → ℝ) (N k c d : ℝ) :
    ∑ w, N * (U w + (k * (W w / d) + c)) = N * (∑ w, U w + (k * ((∑ w, W w) / d) + Fintype.card ι * c)) := by
  rw [← Finset.mul_sum, Finset.sum_add_distrib, Finset.sum_add_distrib, Finset.sum_const, Finset.card_univ, nsmul_eq_mul, ← Finset.mul_sum, Finset.sum_div]

theorem lf_runs (hreg : SfwRegular P C phi l D) {m : ℝ} (hm : m = n / P.batchSize) (htol : P.tol ≤ 0) (T : ℕ) :
    ∃ s : (Fin T → (Fin P.batchSize ↪ Fin n)) → SfwState ℝ n p V,
      (∀ ws, sfwInner P .LF (List.ofFn fun k => List.ofFn (ws k)) ⟨some (sfwInit P), 0, false⟩ = .ok ⟨some (s ws), T, false⟩) ∧ (∀ ws, LfInv P C (s ws)) ∧
      (2 * m + T - 1) * (2 * m + T) * ∑ ws, ∑ j, lfLag P (s ws) j ^ 2 ≤
        (Fintype.card (Fin P.batchSize ↪ Fin n) : ℝ) ^ T * (n * D ^ 2 * (52 * m ^ 2 * T)) ∧
      ∀ z ∈ C, ∑ ws, (T * (T + 4 * m - 1) * (sfwObj P phi (s ws).x - sfwObj P phi z) + 4 * m ^ 2 * D * (T + m) * ((∑ j, lfRest P (s ws) j) / n)) ≤
        (Fintype.card (Fin P.batchSize ↪ Fin n) : ℝ) ^ T * (4 * m ^ 3 * D * ((∑ j, |P.deriv (sfwDot P P.x0 j) (P.b j)|) / n) +
          T * (l * D ^ 2 * (4 * m + 32 * m ^ 2 * Real.sqrt T))) := by
  have hn : (0 : ℝ) < n := by exact_mod_cast hreg.samples
  have hl := hreg.lip_nonneg
  have hD : 0 ≤ D := (abs_nonneg _).trans (hreg.diam _ hreg.start _ hreg.start ⟨0, hreg.samples⟩)
  have hm1 : 1 ≤ m := (lf_steps hreg hm 0).1
  have hm0 : 0 < m := by linarith
  set N : ℝ := (Fintype.card (Fin P.batchSize ↪ Fin n) : ℝ) with hN
  have hN0 : 0 < N := by
    have : Nonempty (Fin P.batchSize ↪ Fin n) := ⟨Fin.castLEEmb hreg.batch_le⟩
    rw [hN]
    exact_mod_cast Fintype.card_pos
  induction T with
  | zero =>
    refine ⟨fun _ => sfwInit P, fun ws => by simp [sfwInner], fun _ => ⟨sfwInit_inv hreg, fun j => ⟨P.x0, hreg.start, rfl⟩⟩, ?_, fun z hz => ?_⟩
    · have : ∀ j, lfLag P (sfwInit P) j = 0 := fun j => sub_self _
      simp [this]
    · have : ∀ j, lfRest P (sfwInit P) j = |P.deriv (sfwDot P P.x0 j) (P.b j)| := fun j => by simp [lfRest, sfwInit]
      simp only [this]
      simp
      apply le_of_eq
      ring
  | succ T ih =>
    obtain ⟨s, h1, h2, h3, h4⟩ := ih
    obtain ⟨-, hq, hγ, hg0, hg1, hqg, hgap⟩ := lf_steps hreg hm T
    choose r r1 r2 r3 r4 using fun ws => lf_mean_step hreg hm T (h2 ws)
    have hT0 : (0 : ℝ) ≤ T := Nat.cast_nonneg T
    have hinit : ∀ (ws : Fin T → (Fin P.batchSize ↪ Fin n)) e, (fun k : Fin T => (Fin.snoc ws e : Fin (T + 1) → (Fin P.batchSize ↪ Fin n)) k.castSucc) = ws :=
      fun ws e => funext fun k => Fin.snoc_castSucc (α := fun _ => (Fin P.batchSize ↪ Fin n)) e ws k
    have hlast : ∀ (ws : Fin T → (Fin P.batchSize ↪ Fin n)) e, (Fin.snoc ws e : Fin (T + 1) → (Fin P.batchSize ↪ Fin n)) (Fin.last T) = e :=
      fun ws e => Fin.snoc_last (α := fun _ => (Fin P.batchSize ↪ Fin n)) e ws
    refine ⟨fun ws => r (fun k => ws k.castSucc) (ws (Fin.last T)), fun ws => ?_, fun ws => (r1 _ _).2, ?_, fun z hz => ?_⟩
    · rw [List.ofFn_succ', List.concat_eq_append, sfwInner_append htol, h1 fun k => ws k.castSucc]
      simp only [Except.bind]
      unfold sfwInner
      simp only [(r1 (fun k => ws k.castSucc) (ws (Fin.last T))).1, bind, Except.bind]
      rw [if_neg (not_lt.mpr (htol.trans (Finset.sum_nonneg fun c _ => abs_nonneg _)))]
      rfl
    · rw [sum_snoc]
      simp only [hinit, hlast]
      set γ := sfwGamma P .LF T with hγd
      set g := lfAgg m T with hgd
      have hnoise := lf_noise hm1 hT0 hγ (show g = 2 * m / (2 * m + T + 1) from rfl) hgap
      have hsum := Finset.sum_le_sum fun ws (_ : ws ∈ Finset.univ) => r3 ws
      rw [← Finset.mul_sum, Finset.sum_add_distrib, ← Finset.mul_sum, Finset.sum_const, Finset.card_univ, Fintype.card_fun, Fintype.card_fin,
        nsmul_eq_mul, Nat.cast_pow, ← hN] at hsum
      set S : ℝ := ∑ ws, ∑ j, lfLag P (s ws) j ^ 2 with hS
      have hcoef : (2 * m + T) * (2 * m + T + 1) * (1 - 1 / m * g) = (2 * m + T - 1) * (2 * m + T) := by
        rw [hqg]
        field_simp
        ring
      have k1 := mul_le_mul_of_nonneg_left hsum (by positivity : 0 ≤ (2 * m + (T : ℝ)) * (2 * m + T + 1))
      have k2 := mul_le_mul_of_nonneg_left hnoise (by positivity : 0 ≤ N * (N ^ T * (n * D ^ 2)))
      have k3 := mul_le_mul_of_nonneg_left h3 hN0.le
      push_cast
      rw [show (2 * m + ((T : ℝ) + 1) - 1) * (2 * m + (T + 1)) = (2 * m + T) * (2 * m + T + 1) by ring]
      refine k1.trans ?_
      calc (2 * m + (T : ℝ)) * (2 * m + T + 1) * (N * ((1 - 1 / m * g) * S + N ^ T * (n * (D ^ 2 * (2 * (γ - 1 / m * g) + 3 * (1 / m * g ^ 2) + γ ^ 2)))))
          = N * (((2 * m + T) * (2 * m + T + 1) * (1 - 1 / m * g)) * S) +
            N * (N ^ T * (n * D ^ 2)) * ((2 * m + T) * (2 * m + T + 1) * (2 * (γ - 1 / m * g) + 3 * (1 / m * g ^ 2) + γ ^ 2)) := by ring
        _ ≤ N * (N ^ T * (n * D ^ 2 * (52 * m ^ 2 * T))) + N * (N ^ T * (n * D ^ 2)) * (52 * m ^ 2) := by rw [hcoef]; linarith
        _ = _ := by rw [pow_succ]; ring
    · rw [sum_snoc]
      simp only [hinit, hlast]
      set γ := sfwGamma P .LF T with hγd
      have hstep : ∀ ws, ∑ e, (((T + 1 : ℕ) : ℝ) * (((T + 1 : ℕ) : ℝ) + 4 * m - 1) * (sfwObj P phi (r ws e).x - sfwObj P phi z) +
          4 * m ^ 2 * D * (((T + 1 : ℕ) : ℝ) + m) * ((∑ j, lfRest P (r ws e) j) / n)) ≤
          N * (((T : ℝ) + 1) * (T + 4 * m) * ((1 - γ) * (sfwObj P phi (s ws).x - sfwObj P phi z) +
            γ * (D / n * ∑ j, (l * |lfLag P (s ws) j| + lfRest P (s ws) j)) + l * γ ^ 2 * D ^ 2 / 2) +
            4 * m ^ 2 * D * (T + 1 + m) * ((1 - 1 / m) * (∑ j, lfRest P (s ws) j) / n)) := by
        intro ws
        push_cast
        rw [Finset.sum_add_distrib, ← Finset.mul_sum, ← Finset.mul_sum, ← Finset.sum_div, r4 ws, ← hN]
        have := Finset.sum_le_sum fun e (_ : e ∈ Finset.univ) => r2 ws e z hz
        rw [Finset.sum_const, Finset.card_univ, nsmul_eq_mul, ← hN] at this
        have := mul_le_mul_of_nonneg_left this (by positivity : 0 ≤ ((T : ℝ) + 1) * (T + 4 * m))
        rw [show ((T : ℝ) + 1 + 4 * m - 1) = T + 4 * m by ring]
        calc _ ≤ _ := add_le_add_left this _
          _ = _ := by ring
      refine (Finset.sum_le_sum fun ws _ => hstep ws).trans ?_
      set ρ : ℝ := Real.sqrt ((T : ℝ) + 1) with hρ
      have hρ0 : 0 < ρ := Real.sqrt_pos.mpr (by positivity)
      have hρ2 : ρ * ρ = (T : ℝ) + 1 := Real.mul_self_sqrt (by positivity)
      have hws : ∀ ws, N * (((T : ℝ) + 1) * (T + 4 * m) * ((1 - γ) * (sfwObj P phi (s ws).x - sfwObj P phi z) +
            γ * (D / n * ∑ j, (l * |lfLag P (s ws) j| + lfRest P (s ws) j)) + l * γ ^ 2 * D ^ 2 / 2) +
            4 * m ^ 2 * D * (T + 1 + m) * ((1 - 1 / m) * (∑ j, lfRest P (s ws) j) / n)) ≤
          N * ((T * (T + 4 * m - 1) * (sfwObj P phi (s ws).x - sfwObj P phi z) + 4 * m ^ 2 * D * (T + m) * ((∑ j, lfRest P (s ws) j) / n)) +
            (l * ρ * (T + 1) / 4 * ((∑ j, lfLag P (s ws) j ^ 2) / n) + l * D ^ 2 * (4 * m + 16 * m ^ 2 * ρ))) := by
        intro ws
        refine mul_le_mul_of_nonneg_left ?_ hN0.le
        have e1 : D / n * ∑ j, (l * |lfLag P (s ws) j| + lfRest P (s ws) j) = D * (l * ((∑ j, |lfLag P (s ws) j|) / n) + (∑ j, lfRest P (s ws) j) / n) := by
          rw [Finset.sum_add_distrib, ← Finset.mul_sum]
          ring
        rw [e1, mul_div_assoc (1 - 1 / m)]
        exact lf_history (h := sfwObj P phi (s ws).x - sfwObj P phi z) (R := (∑ j, lfRest P (s ws) j) / n) hm1 hT0 hl hD (div_nonneg (Finset.sum_nonneg fun j _ => abs_nonneg _) hn.le)
          (div_nonneg (Finset.sum_nonneg fun j _ => abs_nonneg _) hn.le) hγ hρ0 hρ2 (lf_young hreg.samples _ hm0 hρ0)
      refine (Finset.sum_le_sum fun ws _ => hws ws).trans ?_
      have hSle := lf_lag_bound (A := N ^ T * (n * D ^ 2 * (52 * m ^ 2))) hm1 hT0 (by positivity) (h3.trans (le_of_eq (by ring)))
      rw [lf_sum_split, Fintype.card_fun, Fintype.card_fin, Nat.cast_pow, ← hN, pow_succ N T, mul_comm (N ^ T) N, mul_assoc N (N ^ T)]
      refine mul_le_mul_of_nonneg_left ?_ hN0.le
      push_cast
      exact lf_total hm1 hT0 hl hn (by positivity) hρ0 (Real.sqrt_le_sqrt (by linarith)) hSle (h4 z hz)

/-- C106 (LF): as `C106_sag_saga`, with the rate `O(1/sqrt T)`. -/
theorem C106_lf (hreg : SfwRegular P C phi l D) (htol : P.tol ≤ 0) (hv : P.variant = "LF") (hmax : 0 < P.maxIter) :
    ∃ x : (Fin (P.maxIter * (n / P.batchSize)) → (Fin P.batchSize ↪ Fin n)) → (Fin p → ℝ),
      (∀ ws, x ws ∈ C ∧ ∃ r, minimizeSfw { P with order := sfwOrder P.maxIter ws } = .ok r ∧ r.x = some (x ws)) ∧
      ∀ z ∈ C, ∀ (m T : ℝ), m = n / P.batchSize → T = (P.maxIter * (n / P.batchSize) : ℕ) →
        (∑ ws, (finiteSum P.a P.b phi 0 (x ws) - finiteSum P.a P.b phi 0 z)) /
            (Fintype.card (Fin (P.maxIter * (n / P.batchSize)) → (Fin P.batchSize ↪ Fin n)) : ℝ) ≤
          (4 * m ^ 3 * D * ((∑ j, |P.deriv (∑ c, P.a j c * P.x0 c) (P.b j)|) / n) + T * (l * D ^ 2 * (4 * m + 32 * m ^ 2 * Real.sqrt T))) /
            (T * (T + 4 * m - 1)) := by
  have hn : (0 : ℝ) < n := by exact_mod_cast hreg.samples
  have hD : 0 ≤ D := (abs_nonneg _).trans (hreg.diam _ hreg.start _ hreg.start ⟨0, hreg.samples⟩)
  have hTpos : 0 < P.maxIter * (n / P.batchSize) := Nat.mul_pos hmax (Nat.div_pos hreg.batch_le hreg.batch)
  obtain ⟨s, h1, h2, -, h4⟩ := lf_runs hreg rfl htol (P.maxIter * (n / P.batchSize))
  refine ⟨fun ws => (s ws).x, fun ws => ⟨(h2 ws).mem, minimizeSfw_draws hreg htol (by rw [hv]; simp [parseVariant]) hmax ws _ _ _ (h1 ws)⟩, ?_⟩
  intro z hz m T hmd hT
  have h5 := h4 z hz
  rw [← hmd, ← hT] at h5
  have hm1 : 1 ≤ m := (lf_steps hreg hmd 0).1
  have hT0 : 0 < T := by rw [hT]; exact_mod_cast hTpos
  rw [Fintype.card_fun, Fintype.card_fin, Nat.cast_pow]
  set N : ℝ := (Fintype.card (Fin P.batchSize ↪ Fin n) : ℝ) ^ (P.maxIter * (n / P.batchSize)) with hN
  have hN0 : 0 < N := by
    have : Nonempty (Fin P.batchSize ↪ Fin n) := ⟨Fin.castLEEmb hreg.batch_le⟩
    have : (0 : ℝ) < Fintype.card (Fin P.batchSize ↪ Fin n) := by exact_mod_cast Fintype.card_pos
    positivity
  have hden : 0 < T * (T + 4 * m - 1) := mul_pos hT0 (by linarith)
  rw [div_le_div_iff₀ hN0 hden, mul_comm, mul_comm _ N]
  refine le_trans ?_ h5
  rw [Finset.mul_sum]
  refine Finset.sum_le_sum fun ws _ => ?_
  have : 0 ≤ 4 * m ^ 2 * D * (T + m) * ((∑ j, lfRest P (s ws) j) / n) := by
    have : 0 ≤ ∑ j, lfRest P (s ws) j := Finset.sum_nonneg fun j _ => abs_nonneg _
    positivity
  exact le_add_of_nonneg_right this

/-! ### Convergence -/

/-- The same call with another number of epochs. -/
theorem SfwRegular.epochs (hreg : SfwRegular P C phi l D) (E : ℕ) : SfwRegular { P with maxIter := E } C phi l D :=
  ⟨hreg.samples, hreg.batch, hreg.batch_le, hreg.step, hreg.vanilla, hreg.conv, hreg.lmo, hreg.start, hreg.deriv, hreg.mono, hreg.lip, hreg.lip_nonneg, hreg.diam⟩

theorem sag_bound {a b T : ℝ} (ha : 0 ≤ a) (hb : 0 ≤ b) (hT : 1 ≤ T) : (a + T * b) / (T * (T + 1)) ≤ (a + b) / T ^ (1 / 3 : ℝ) := by
  have hT0 : 0 < T := by linarith
  have h1 : T ^ (1 / 3 : ℝ) ≤ T := by
    calc T ^ (1 / 3 : ℝ) ≤ T ^ (1 : ℝ) := Real.rpow_le_rpow_of_exponent_le hT (by norm_num)
      _ = T := Real.rpow_one T
  have h2 : 0 < T ^ (1 / 3 : ℝ) := Real.rpow_pos_of_pos hT0 _
  rw [div_le_div_iff₀ (by positivity) h2]
  have h3 : a + T * b ≤ T * (a + b) := by nlinarith
  calc (a + T * b) * T ^ (1 / 3 : ℝ) ≤ T * (a + b) * T := mul_le_mul h3 h1 h2.le (by positivity)
    _ ≤ (a + b) * (T * (T + 1)) := by nlinarith [mul_nonneg hT0.le (add_nonneg ha hb)]

theorem mhk_bound {a k B T : ℝ} (ha : 0 ≤ a) (hk : 0 ≤ k) (hB : 1 ≤ B) (hT : 1 ≤ T) :
    (a + T * (k * (T + B) ^ (2 / 3 : ℝ))) / ((T + 6) * (T + 7)) ≤ (a + k * (2 * B)) / T ^ (1 / 3 : ℝ) := by
  have hT0 : 0 < T := by linarith
  have hB0 : 0 < B := by linarith
  have h2 : 0 < T ^ (1 / 3 : ℝ) := Real.rpow_pos_of_pos hT0 _
  have h23 : 1 ≤ T ^ (2 / 3 : ℝ) := Real.one_le_rpow hT (by norm_num)
  have hmul : T ^ (1 / 3 : ℝ) * T ^ (2 / 3 : ℝ) = T := by
    rw [← Real.rpow_add hT0, show (1 / 3 : ℝ) + 2 / 3 = 1 by norm_num, Real.rpow_one]
  have h4 : (T + B) ^ (2 / 3 : ℝ) ≤ 2 * B * T ^ (2 / 3 : ℝ) := by
    have e : T + B ≤ 2 * B * T := by nlinarith
    calc (T + B) ^ (2 / 3 : ℝ) ≤ (2 * B * T) ^ (2 / 3 : ℝ) := Real.rpow_le_rpow (by positivity) e (by norm_num)
      _ = (2 * B) ^ (2 / 3 : ℝ) * T ^ (2 / 3 : ℝ) := Real.mul_rpow (by positivity) hT0.le
      _ ≤ (2 * B) * T ^ (2 / 3 : ℝ) := by
        refine mul_le_mul_of_nonneg_right ?_ (by positivity)
        calc (2 * B) ^ (2 / 3 : ℝ) ≤ (2 * B) ^ (1 : ℝ) := Real.rpow_le_rpow_of_exponent_le (by linarith) (by norm_num)
          _ = 2 * B := Real.rpow_one _
  rw [div_le_div_iff₀ (by positivity) h2]
  have h5 : a + T * (k * (T + B) ^ (2 / 3 : ℝ)) ≤ T * T ^ (2 / 3 : ℝ) * (a + k * (2 * B)) := by
    have h6 := mul_le_mul_of_nonneg_left h4 (mul_nonneg hT0.le hk)
    have h7 : 1 ≤ T * T ^ (2 / 3 : ℝ) := by nlinarith
    have h8 := mul_le_mul_of_nonneg_right h7 ha
    nlinarith
  calc (a + T * (k * (T + B) ^ (2 / 3 : ℝ))) * T ^ (1 / 3 : ℝ) ≤ T * T ^ (2 / 3 : ℝ) * (a + k * (2 * B)) * T ^ (1 / 3 : ℝ) :=
        mul_le_mul_of_nonneg_right h5 h2.le
    _ = (a + k * (2 * B)) * (T * (T ^ (1 / 3 : ℝ) * T ^ (2 / 3 : ℝ))) := by ring
    _ = (a + k * (2 * B)) * (T * T) := by rw [hmul]
    _ ≤ (a + k * (2 * B)) * ((T + 6) * (T + 7)) := mul_le_mul_of_nonneg_left (by nlinarith) (by positivity)

theorem lf_bound {a k m T : ℝ} (ha : 0 ≤ a) (hk : 0 ≤ k) (hm : 1 ≤ m) (hT : 1 ≤ T) :
    (a + T * (k * (4 * m + 32 * m ^ 2 * Real.sqrt T))) / (T * (T + 4 * m - 1)) ≤ (a + k * (4 * m + 32 * m ^ 2)) / T ^ (1 / 3 : ℝ) := by
  have hT0 : 0 < T := by linarith
  have h2 : 0 < T ^ (1 / 3 : ℝ) := Real.rpow_pos_of_pos hT0 _
  have hs1 : 1 ≤ Real.sqrt T := by rw [Real.one_le_sqrt]; exact hT
  have hs : Real.sqrt T * Real.sqrt T = T := Real.mul_self_sqrt hT0.le
  have h3 : T ^ (1 / 3 : ℝ) ≤ Real.sqrt T := by
    rw [Real.sqrt_eq_rpow]
    exact Real.rpow_le_rpow_of_exponent_le hT (by norm_num)
  rw [div_le_div_iff₀ (mul_pos hT0 (by linarith)) h2]
  have h5 : a + T * (k * (4 * m + 32 * m ^ 2 * Real.sqrt T)) ≤ T * Real.sqrt T * (a + k * (4 * m + 32 * m ^ 2)) := by
    have h7 : 1 ≤ T * Real.sqrt T := by nlinarith
    have h8 := mul_le_mul_of_nonneg_right h7 ha
    have h9 : 0 ≤ T * (k * (4 * m)) * (Real.sqrt T - 1) := mul_nonneg (by positivity) (by linarith)
    nlinarith
  calc (a + T * (k * (4 * m + 32 * m ^ 2 * Real.sqrt T))) * T ^ (1 / 3 : ℝ) ≤ T * Real.sqrt T * (a + k * (4 * m + 32 * m ^ 2)) * Real.sqrt T :=
        mul_le_mul h5 h3 h2.le (by positivity)
    _ = (a + k * (4 * m + 32 * m ^ 2)) * (T * (Real.sqrt T * Real.sqrt T)) := by ring
    _ = (a + k * (4 * m + 32 * m ^ 2)) * (T * T) := by rw [hs]
    _ ≤ _ := mul_le_mul_of_nonneg_left (mul_le_mul_of_nonneg_left (by linarith) hT0.le) (by positivity)

/-- The returned points of the runs with `E` epochs. -/
def SfwReturns (P : SfwArgs ℝ n p V) (E : ℕ) (x : (Fin (E * (n / P.batchSize)) → (Fin P.batchSize ↪ Fin n)) → (Fin p → ℝ)) : Prop :=
  ∀ ws, ∃ r, minimizeSfw { P with maxIter := E, order := sfwOrder E ws } = .ok r ∧ r.x = some (x ws)

/-- The mean over the draws. -/
noncomputable def sfwMean (P : SfwArgs ℝ n p V) (E : ℕ) (F : (Fin (E * (n / P.batchSize)) → (Fin P.batchSize ↪ Fin n)) → ℝ) : ℝ :=
  (∑ ws, F ws) / (Fintype.card (Fin (E * (n / P.batchSize)) → (Fin P.batchSize ↪ Fin n)) : ℝ)

/-- C106 (every variant): the runs do not raise, their results are in the set, and the mean objective tends to at most its value at any point of the set as
`max_iter` grows. -/
theorem C106_converges (hreg : SfwRegular P C phi l D) (htol : P.tol ≤ 0) (hv : P.variant = "SAG" ∨ P.variant = "SAGA" ∨ P.variant = "MHK" ∨ P.variant = "LF")
    (hcb : ∀ y : ℝ, 0 ≤ y → P.cbrtSq y = y ^ (2 / 3 : ℝ)) {z : Fin p → ℝ} (hz : z ∈ C) :
    ∃ K : ℝ, 0 ≤ K ∧ ∀ E : ℕ, 0 < E → ∃ x, SfwReturns P E x ∧ (∀ ws, x ws ∈ C) ∧
      sfwMean P E (fun ws => finiteSum P.a P.b phi 0 (x ws) - finiteSum P.a P.b phi 0 z) ≤ K / ((E * (n / P.batchSize) : ℕ) : ℝ) ^ (1 / 3 : ℝ) := by
  have hn : (0 : ℝ) < n := by exact_mod_cast hreg.samples
  have hl := hreg.lip_nonneg
  have hD : 0 ≤ D := (abs_nonneg _).trans (hreg.diam _ hreg.start _ hreg.start ⟨0, hreg.samples⟩)
  obtain ⟨hq, hq1⟩ := sfw_q hreg
  set q : ℝ := (P.batchSize : ℝ) / n with hqd
  set G : ℝ := (∑ j, |P.deriv (∑ c, P.a j c * P.x0 c) (P.b j)|) / n with hG
  have hG0 : 0 ≤ G := div_nonneg (Finset.sum_nonneg fun j _ => abs_nonneg _) hn.le
  have hT : ∀ E : ℕ, 0 < E → (1 : ℝ) ≤ ((E * (n / P.batchSize) : ℕ) : ℝ) := fun E hE => by
    exact_mod_cast Nat.mul_pos hE (Nat.div_pos hreg.batch_le hreg.batch)
  by_cases hs : P.variant = "SAG" ∨ P.variant = "SAGA"
  · set κ : ℝ := (if P.variant = "SAG" then (1 : ℝ) else 1 + P.batchSize) with hκ
    have hκ0 : 0 ≤ κ := by rw [hκ]; split <;> positivity
    refine ⟨2 * κ * D / q ^ 2 * G + l * D ^ 2 * (2 + 4 * κ / q ^ 2), by positivity, fun E hE => ?_⟩
    obtain ⟨x, h1, h2⟩ := C106_sag_saga (hreg.epochs E) htol hs hE
    refine ⟨x, fun ws => (h1 ws).2, fun ws => (h1 ws).1, (h2 z hz κ q _ hκ hqd rfl).trans ?_⟩
    exact sag_bound (by positivity) (by positivity) (hT E hE)
  · by_cases hM : P.variant = "MHK"
    · have hB10 : 10 ≤ 10 / q ^ 3 := by
        rw [le_div_iff₀ (by positivity)]
        have : q ^ 3 ≤ 1 := pow_le_one₀ hq.le hq1
        linarith
      have hBp : 0 ≤ (10 / q ^ 3) ^ (5 / 3 : ℝ) := Real.rpow_nonneg (by linarith) _
      set h0 : ℝ := |finiteSum P.a P.b phi 0 P.x0 - finiteSum P.a P.b phi 0 z| with hh0
      have hh00 : 0 ≤ h0 := abs_nonneg _
      refine ⟨(42 * h0 + 4 * D / q * (10 / q ^ 3) ^ (5 / 3 : ℝ) * G) + (l * D ^ 2 * (2 + 8 * (10 / q ^ 3) / q)) * (2 * (10 / q ^ 3)), by positivity,
        fun E hE => ?_⟩
      obtain ⟨x, h1, h2⟩ := C106_mhk (hreg.epochs E) htol hM hcb hE
      refine ⟨x, fun ws => (h1 ws).2, fun ws => (h1 ws).1, (h2 z hz q _ _ hqd rfl rfl).trans ?_⟩
      refine le_trans ?_ (mhk_bound (a := 42 * h0 + 4 * D / q * (10 / q ^ 3) ^ (5 / 3 : ℝ) * G) (k := l * D ^ 2 * (2 + 8 * (10 / q ^ 3) / q)) (by positivity)
        (by positivity) (by linarith) (hT E hE))
      set T : ℝ := ((E * (n / P.batchSize) : ℕ) : ℝ) with hTd
      have hT1 : 1 ≤ T := hT E hE
      refine div_le_div_of_nonneg_right ?_ (by positivity)
      have b1 := le_abs_self (finiteSum P.a P.b phi 0 P.x0 - finiteSum P.a P.b phi 0 z)
      have b2 : 1 ≤ (T + 10 / q ^ 3) ^ (2 / 3 : ℝ) := Real.one_le_rpow (by linarith) (by norm_num)
      have b3 : T * (l * D ^ 2 * (2 + 8 * (10 / q ^ 3) / q * (T + 10 / q ^ 3) ^ (2 / 3 : ℝ))) ≤
          T * (l * D ^ 2 * (2 + 8 * (10 / q ^ 3) / q) * (T + 10 / q ^ 3) ^ (2 / 3 : ℝ)) := by
        refine mul_le_mul_of_nonneg_left ?_ (by linarith)
        rw [mul_assoc (l * D ^ 2)]
        refine mul_le_mul_of_nonneg_left ?_ (by positivity)
        nlinarith
      show 42 * (finiteSum P.a P.b phi 0 P.x0 - finiteSum P.a P.b phi 0 z) + 4 * D / q * (10 / q ^ 3) ^ (5 / 3 : ℝ) * G +
        T * (l * D ^ 2 * (2 + 8 * (10 / q ^ 3) / q * (T + 10 / q ^ 3) ^ (2 / 3 : ℝ))) ≤ _
      rw [← hh0] at b1
      linarith
    · have hLF : P.variant = "LF" := by
        rcases hv with h | h | h | h
        · exact absurd (Or.inl h) hs
        · exact absurd (Or.inr h) hs
        · exact absurd h hM
        · exact h
      have hm1 := (lf_steps hreg rfl 0).1
      refine ⟨4 * ((n : ℝ) / P.batchSize) ^ 3 * D * G + l * D ^ 2 * (4 * ((n : ℝ) / P.batchSize) + 32 * ((n : ℝ) / P.batchSize) ^ 2), by positivity, fun E hE => ?_⟩
      obtain ⟨x, h1, h2⟩ := C106_lf (hreg.epochs E) htol hLF hE
      refine ⟨x, fun ws => (h1 ws).2, fun ws => (h1 ws).1, (h2 z hz _ _ rfl rfl).trans ?_⟩
      exact lf_bound (by positivity) (by positivity) hm1 (hT E hE)

end Copt
