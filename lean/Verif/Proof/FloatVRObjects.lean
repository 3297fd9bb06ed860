import Verif.Proof.FloatRandomized
import Verif.Proof.FloatValue
import Verif.Props.VRObjects

/-! # The losses and penalties of the library as computed oracles of SAGA and SVRG -/

set_option linter.unusedSectionVars false

namespace Copt

open Spec

variable {n p : ℕ}

theorem rd_inv {α : Type} {m : ℕ} {a : Fin m → α} {k : ℕ} {v : α} (h : rd a k = some v) : ∃ hk : k < m, v = a ⟨k, hk⟩ := by
  by_cases hk : k < m
  · refine ⟨hk, ?_⟩
    rw [rd_lt a hk] at h
    exact (Option.some.inj h).symm
  · simp [rd, hk] at h

theorem norm2_scale {fl : ℝ → ℝ} {u eta w : ℝ} (hs : Scale fl u eta w 1) (v : Fin p → ℝ) : Scale fl u eta w (1 + norm2 v) :=
  ⟨hs.rnd, hs.u_le, hs.eta_le, hs.w_nonneg, hs.w_le, by linarith [norm2_nonneg' v]⟩

/-- The computed weighted threshold `alpha * d[j] * step`. -/
theorem thr_close (alpha step : ℝ) (n : ℕ) : ∃ C T, 0 ≤ C ∧ 0 ≤ T ∧ ∀ (fl : ℝ → ℝ) (u eta w r d : ℝ), Scale fl u eta w r → 0 ≤ d → d ≤ n + 1 →
    Close w r C T (fl (fl (alpha * fl d) * step)) (alpha * d * step) ∧ Close w r C T (fl (alpha * fl (step * fl d))) (alpha * (step * d)) := by
  have hn : (0 : ℝ) ≤ n := Nat.cast_nonneg n
  have hd : ∀ (fl : ℝ → ℝ) (u eta w r d : ℝ), Scale fl u eta w r → 0 ≤ d → d ≤ n + 1 → Close w r 0 (n + 1) d d := fun fl u eta w r d hs h0 h1 =>
    (Close.const hs d).mono hs le_rfl (by rwa [abs_of_nonneg h0])
  obtain ⟨C1, hC1⟩ : ∃ C1 : ℝ, C1 = 2 * 0 + (n + 1) + 1 := ⟨_, rfl⟩
  have hC10 : 0 ≤ C1 := by rw [hC1]; positivity
  obtain ⟨Ca, hCa⟩ : ∃ C, C = 2 * (|step| * (2 * (|alpha| * C1) + |alpha| * (n + 1) + 1)) + |step| * (|alpha| * (n + 1)) + 1 := ⟨_, rfl⟩
  obtain ⟨Cb, hCb⟩ : ∃ C, C = 2 * (|alpha| * (2 * (|step| * C1) + |step| * (n + 1) + 1)) + |alpha| * (|step| * (n + 1)) + 1 := ⟨_, rfl⟩
  have hCa0 : 0 ≤ Ca := by rw [hCa]; positivity
  have hCb0 : 0 ≤ Cb := by rw [hCb]; positivity
  refine ⟨Ca + Cb, |step| * (|alpha| * (n + 1)), by positivity, by positivity, fun fl u eta w r d hs h0 h1 => ⟨?_, ?_⟩⟩
  · have h := (((((hd fl u eta w r d hs h0 h1).round hs).smul alpha).round hs).smul step).round hs
    rw [mul_comm step, mul_comm step] at h
    exact h.mono hs (by rw [hCa, hC1]; linarith) le_rfl
  · have h := (((((hd fl u eta w r d hs h0 h1).round hs).smul step).round hs).smul alpha).round hs
    exact h.mono hs (by rw [hCb, hC1]; linarith) (le_of_eq (by ring))

/-- `_prox_L1`. -/
theorem l1Kernel_error (alpha step : ℝ) (n p : ℕ) : ∃ K, 0 ≤ K ∧ ∀ (fl : ℝ → ℝ) (u eta w : ℝ), Scale fl u eta w 1 → ∀ (m : ℕ) (d : Fin m → ℝ) (hs : List ℕ) (v z : Fin p → ℝ),
    (∀ h, 0 ≤ d h ∧ d h ≤ n + 1) → hs.Nodup → L1Norm.kernel alpha d step hs v = some z →
      ∃ z', L1Norm.flKernel fl alpha (fun h => fl (d h)) step hs v = some z' ∧ ∀ c, |z' c - z c| ≤ K * w * (1 + norm2 v) := by
  obtain ⟨C, T, hC, hT, hthr⟩ := thr_close alpha step n
  obtain ⟨C1, hC1⟩ : ∃ C1, C1 = 2 * (0 + C) + (1 + T) + 1 := ⟨_, rfl⟩
  have hC10 : 0 ≤ C1 := by rw [hC1]; positivity
  refine ⟨2 * (C1 + C1) + ((1 + T) + (1 + T)) + 1, by positivity, ?_⟩
  obtain ⟨K, hK⟩ : ∃ K, K = 2 * (C1 + C1) + ((1 + T) + (1 + T)) + 1 := ⟨_, rfl⟩
  have hK0 : 0 ≤ K := by rw [hK]; positivity
  rw [← hK]
  intro fl u eta w hs1 m d row0 v z hd hnd hz
  have hs := norm2_scale hs1 v
  have hr : 0 ≤ 1 + norm2 v := by linarith [norm2_nonneg' v]
  have hw := hs1.w_nonneg
  have hpoint : ∀ (c : Fin p) (h : Fin m), |fl (max (fl (v c - fl (fl (alpha * fl (d h)) * step))) 0 - max (fl (-v c - fl (fl (alpha * fl (d h)) * step))) 0) -
      (max (v c - alpha * d h * step) 0 - max (-v c - alpha * d h * step) 0)| ≤ K * w * (1 + norm2 v) := by
    intro c h
    have hvc : |v c| ≤ 1 + norm2 v := (abs_le_norm2 v c).trans (by linarith)
    have ht := (hthr fl u eta w _ (d h) hs (hd h).1 (hd h).2).1
    have h1 := (((Close.self hs hvc).sub ht).round hs).max0 hs
    have h2 := (((Close.self hs hvc).neg.sub ht).round hs).max0 hs
    rw [← hC1] at h1 h2
    have h3 := ((h1.sub h2).round hs).err
    rwa [← hK] at h3
  suffices H : ∀ (row : List ℕ) (x x' z : Fin p → ℝ), row.Nodup → (∀ c : Fin p, c.val ∈ row → x c = v c ∧ x' c = v c) → (∀ c, |x' c - x c| ≤ K * w * (1 + norm2 v)) →
      L1Norm.kernel alpha d step row x = some z → ∃ z', L1Norm.flKernel fl alpha (fun h => fl (d h)) step row x' = some z' ∧ ∀ c, |z' c - z c| ≤ K * w * (1 + norm2 v) from
    H row0 v v z hnd (fun _ _ => ⟨rfl, rfl⟩) (fun c => by rw [sub_self, abs_zero]; positivity) hz
  intro row
  induction row with
  | nil =>
    intro x x' z _ _ he hz
    rw [L1Norm.kernel] at hz
    obtain rfl := Option.some.inj hz
    exact ⟨x', rfl, he⟩
  | cons j row ih =>
    intro x x' z hnd hv he hz
    rw [L1Norm.kernel] at hz
    simp only [Option.bind_eq_bind, Option.bind_eq_some_iff] at hz
    obtain ⟨xj, hxj, dj, hdj, y, hy, hz⟩ := hz
    obtain ⟨hj, rfl⟩ := rd_inv hxj
    obtain ⟨hm, rfl⟩ := rd_inv hdj
    rw [wr_lt x hj] at hy
    obtain rfl := Option.some.inj hy
    have hnd' := List.nodup_cons.mp hnd
    obtain ⟨e1, e2⟩ := hv ⟨j, hj⟩ List.mem_cons_self
    obtain ⟨z', hz', hb⟩ := ih _ (Function.update x' ⟨j, hj⟩ (fl (max (fl (x' ⟨j, hj⟩ - fl (fl (alpha * fl (d ⟨j, hm⟩)) * step))) 0 -
      max (fl (-x' ⟨j, hj⟩ - fl (fl (alpha * fl (d ⟨j, hm⟩)) * step))) 0))) z hnd'.2 (fun c hc => by
        have hne : c ≠ ⟨j, hj⟩ := fun h => hnd'.1 (by rw [h] at hc; exact hc)
        rw [Function.update_of_ne hne, Function.update_of_ne hne]
        exact hv c (List.mem_cons_of_mem _ hc)) (fun c => by
          by_cases hc : c = ⟨j, hj⟩
          · subst hc
            rw [Function.update_self, Function.update_self, e1, e2]
            exact hpoint _ _
          · rw [Function.update_of_ne hc, Function.update_of_ne hc]
            exact he c) hz
    refine ⟨z', ?_, hb⟩
    rw [L1Norm.flKernel]
    simp only [Option.bind_eq_bind, rd_lt x' hj, rd_lt (fun h => fl (d h)) hm, Option.bind_some, wr_lt x' hj]
    exact hz'

/-- `norm += x[j_idx] ** 2`: the error of the computed sum of squares. -/
theorem flSumSqLoop_spec {fl : ℝ → ℝ} {u eta w : ℝ} (hs : Scale fl u eta w 1) (x : Fin p → ℝ) : ∀ (js : List ℕ) (acc acc' c : ℝ), js.Nodup → (∀ j ∈ js, j < p) → 0 ≤ acc → 0 ≤ c →
    |acc' - acc| ≤ c * (w * acc + w ^ 2) → ∃ s, flSumSqLoop fl x js acc' = some s ∧
      |s - (acc + ∑ i ∈ featSet js, x i ^ 2)| ≤ (2 ^ js.length * (c + 5) - 5) * (w * (acc + ∑ i ∈ featSet js, x i ^ 2) + w ^ 2)
  | [], acc, acc', c, _, _, _, _, h => ⟨acc', rfl, by simpa [featSet] using h⟩
  | j :: js, acc, acc', c, hnd, hb, ha, hc, h => by
    have hj := hb j List.mem_cons_self
    have hnd' := List.nodup_cons.mp hnd
    have hw := hs.w_nonneg
    have hw1 := hs.w_le
    obtain ⟨q, hq⟩ : ∃ q, q = x ⟨j, hj⟩ * x ⟨j, hj⟩ := ⟨_, rfl⟩
    have hq0 : 0 ≤ q := by rw [hq]; exact mul_self_nonneg _
    have e1 : |fl q - q| ≤ w * q + w ^ 2 := by
      have h1 := hs.rnd.err q
      rw [abs_of_nonneg hq0] at h1
      have h2 := mul_le_mul_of_nonneg_right hs.u_le hq0
      linarith [hs.eta_le]
    obtain ⟨S, hS⟩ : ∃ S, S = w * (acc + q) + w ^ 2 := ⟨_, rfl⟩
    have hwq := mul_nonneg hw hq0
    have hwa := mul_nonneg hw ha
    have hw2 := sq_nonneg w
    have hS0 : 0 ≤ S := by rw [hS]; positivity
    have e2 : |acc' + fl q - (acc + q)| ≤ (c + 1) * S := by
      have : acc' + fl q - (acc + q) = (acc' - acc) + (fl q - q) := by ring
      rw [this]
      refine (abs_add_le _ _).trans ?_
      have h3 : c * (w * acc + w ^ 2) ≤ c * S := mul_le_mul_of_nonneg_left (by rw [hS]; linarith) hc
      have h4 : w * q + w ^ 2 ≤ S := by rw [hS]; linarith
      linarith
    have e3 : |fl (acc' + fl q) - (acc + q)| ≤ (2 * c + 5) * S := by
      have h1 := hs.rnd.err (acc' + fl q)
      have h2 : |acc' + fl q| ≤ (acc + q) + (c + 1) * S := by
        have := abs_add_le (acc' + fl q - (acc + q)) (acc + q)
        rw [sub_add_cancel, abs_of_nonneg (add_nonneg ha hq0)] at this
        linarith
      have h3 := mul_le_mul hs.u_le h2 (abs_nonneg _) hw
      have h4 : w * ((c + 1) * S) ≤ 1 * ((c + 1) * S) := mul_le_mul_of_nonneg_right hw1 (by positivity)
      have h5 := abs_sub_le (fl (acc' + fl q)) (acc' + fl q) (acc + q)
      have h6 : w * (acc + q) + w ^ 2 = S := hS.symm
      have h7 := hs.eta_le
      have h8 : w * ((acc + q) + (c + 1) * S) = w * (acc + q) + w * ((c + 1) * S) := by ring
      nlinarith
    rw [hS] at e3
    obtain ⟨s, hs', hb'⟩ := flSumSqLoop_spec hs x js (acc + q) (fl (acc' + fl q)) (2 * c + 5) hnd'.2 (fun i hi => hb i (List.mem_cons_of_mem _ hi)) (add_nonneg ha hq0) (by linarith) e3
    refine ⟨s, ?_, ?_⟩
    · simp only [flSumSqLoop, rd_lt x hj, Option.bind_eq_bind, Option.bind_some]
      rw [← hq]
      exact hs'
    · rw [featSet_cons j hj, Finset.sum_insert (by simp [mem_featSet, hnd'.1]), ← add_assoc, sq (x ⟨j, hj⟩), ← hq, List.length_cons, pow_succ]
      refine hb'.trans (le_of_eq ?_)
      ring

/-- Square roots of close numbers. -/
theorem sqrt_close {s S c w : ℝ} (hS : 0 ≤ S) (hc : 0 ≤ c) (hw : 0 ≤ w) (hw1 : w ≤ 1) (h : |s - S| ≤ c * (w * S + w ^ 2)) : |√s - √S| ≤ (2 * c + 1) * w * (1 + √S) := by
  have hr := Real.sqrt_nonneg S
  have hr' := Real.sqrt_nonneg s
  have hsq := Real.sq_sqrt hS
  obtain ⟨R, hR⟩ : ∃ R, R = √S := ⟨_, rfl⟩
  obtain ⟨r, hrd⟩ : ∃ r, r = √s := ⟨_, rfl⟩
  have h1 : |r - R| * (r + R) ≤ |s - S| := by
    rcases le_total 0 s with h0 | h0
    · have h2 := Real.sq_sqrt h0
      rw [← abs_of_nonneg (by rw [hrd, hR]; positivity : 0 ≤ r + R), ← abs_mul]
      refine le_of_eq (congrArg _ ?_)
      rw [hrd, hR]
      linear_combination h2 - hsq
    · have h2 : r = 0 := by rw [hrd]; exact Real.sqrt_eq_zero_of_nonpos h0
      rw [h2, zero_sub, abs_neg, zero_add, abs_of_nonneg (by rw [hR]; exact hr), abs_sub_comm, abs_of_nonneg (by linarith)]
      rw [hR]
      nlinarith
  rw [← hR] at hr hsq ⊢
  rw [← hrd] at hr' ⊢
  have h2 := h1.trans h
  rw [← hsq] at h2
  have hd := abs_nonneg (r - R)
  have h3 : |r - R| ≤ r + R := abs_le.mpr ⟨by linarith, by linarith⟩
  by_cases hRw : w ≤ R
  · rcases hr.eq_or_lt with h0 | h0
    · have hw0 : w = 0 := by linarith
      rw [← h0, hw0] at h2
      have h4 := mul_le_mul_of_nonneg_left h3 hd
      have h5 : |r - R| ^ 2 ≤ 0 := by rw [← h0] at h4 ⊢; nlinarith
      have h6 : |r - R| = 0 := by nlinarith
      rw [h6]; positivity
    · have h4 : |r - R| * R ≤ (c * (w * R + w)) * R := by
        have h5 : |r - R| * R ≤ |r - R| * (r + R) := mul_le_mul_of_nonneg_left (by linarith) hd
        have h6 : c * (w * R ^ 2 + w ^ 2) ≤ c * (w * R + w) * R := by
          rw [mul_assoc]
          refine mul_le_mul_of_nonneg_left ?_ hc
          nlinarith
        linarith
      have h5 := le_of_mul_le_mul_right h4 h0
      have h6 : 0 ≤ (c + 1) * w * (1 + R) := by positivity
      nlinarith
  · push Not at hRw
    have h4 : |r - R| ^ 2 ≤ c * (w * R ^ 2 + w ^ 2) := by
      have := mul_le_mul_of_nonneg_left h3 hd
      rw [sq]
      linarith
    have h5 : c * (w * R ^ 2 + w ^ 2) ≤ ((2 * c + 1) * w) ^ 2 := by
      have h6 : w * R ^ 2 ≤ w ^ 2 := by
        have h7 : R ^ 2 ≤ w := by nlinarith
        nlinarith
      have h7 : c * (w * R ^ 2 + w ^ 2) ≤ c * (2 * w ^ 2) := mul_le_mul_of_nonneg_left (by linarith) hc
      nlinarith [sq_nonneg w, mul_nonneg (mul_nonneg hc hc) (sq_nonneg w), mul_nonneg hc (sq_nonneg w)]
    have h6 := (sq_le_sq₀ hd (by positivity : 0 ≤ (2 * c + 1) * w)).mp (h4.trans h5)
    have h7 : (2 * c + 1) * w * 1 ≤ (2 * c + 1) * w * (1 + R) := mul_le_mul_of_nonneg_left (by linarith) (by positivity)
    linarith

/-- The computed norm of a block. -/
theorem flBlockNorm_close (p : ℕ) : ∃ C : ℝ, 0 ≤ C ∧ ∀ (fl : ℝ → ℝ) (u eta w : ℝ), Scale fl u eta w 1 → ∀ (x v : Fin p → ℝ) (js : List ℕ), js.Nodup → (∀ j ∈ js, j < p) →
    (∀ c : Fin p, c.val ∈ js → x c = v c) → ∃ sq, flSumSqLoop fl x js 0 = some sq ∧ Close w (1 + norm2 v) C 1 (fl √sq) (blockNorm (featSet js) v) := by
  obtain ⟨c, hc⟩ : ∃ c : ℝ, c = 2 ^ p * 5 := ⟨_, rfl⟩
  have hc0 : 0 ≤ c := by rw [hc]; positivity
  refine ⟨2 * (2 * c + 1) + 1 + 1, by positivity, fun fl u eta w hs x v js hnd hb hx => ?_⟩
  have hlen : js.length ≤ p := by
    have h1 : js.toFinset ⊆ Finset.range p := fun j hj => Finset.mem_range.mpr (hb j (List.mem_toFinset.mp hj))
    have h2 := Finset.card_le_card h1
    rwa [List.toFinset_card_of_nodup hnd, Finset.card_range] at h2
  obtain ⟨sq, h1, h2⟩ := flSumSqLoop_spec hs x js 0 0 0 hnd hb le_rfl le_rfl (by have := hs.w_nonneg; rw [sub_self, abs_zero]; positivity)
  refine ⟨sq, h1, ?_⟩
  have hs' := norm2_scale hs v
  have hw := hs.w_nonneg
  have e : ∑ i ∈ featSet js, x i ^ 2 = ∑ i ∈ featSet js, v i ^ 2 := Finset.sum_congr rfl fun i hi => by rw [hx i (mem_featSet.mp hi)]
  rw [e, zero_add] at h2
  have hS : 0 ≤ ∑ i ∈ featSet js, v i ^ 2 := Finset.sum_nonneg fun i _ => sq_nonneg (v i)
  have hl : (2 : ℝ) ^ js.length ≤ 2 ^ p := pow_le_pow_right₀ (by norm_num) hlen
  have h3 : |sq - ∑ i ∈ featSet js, v i ^ 2| ≤ c * (w * (∑ i ∈ featSet js, v i ^ 2) + w ^ 2) := by
    refine h2.trans (mul_le_mul_of_nonneg_right ?_ (by positivity))
    rw [hc]
    linarith
  have h4 := sqrt_close hS hc0 hw hs.w_le h3
  have hN : √(∑ i ∈ featSet js, v i ^ 2) ≤ norm2 v := blockNorm_le_norm2 (featSet js) v
  have h5 : Close w (1 + norm2 v) (2 * c + 1) 1 √sq (blockNorm (featSet js) v) := by
    refine ⟨h4.trans (mul_le_mul_of_nonneg_left (by linarith) (by positivity)), ?_, by positivity, zero_le_one⟩
    have h6 : 0 ≤ blockNorm (featSet js) v := Real.sqrt_nonneg _
    rw [abs_of_nonneg h6]
    have : blockNorm (featSet js) v ≤ norm2 v := hN
    linarith
  exact h5.round hs'

/-- One feature of a penalised block. -/
theorem softBlock_fl : ∃ K : ℝ → ℝ → ℝ, (∀ C Ct, 0 ≤ C → 0 ≤ Ct → 0 ≤ K C Ct) ∧ ∀ (fl : ℝ → ℝ) (u eta w r : ℝ), Scale fl u eta w r → ∀ (y N F T t C Ct : ℝ), |y| ≤ N → N ≤ r → 0 ≤ t → 0 ≤ T → 0 ≤ C → 0 ≤ Ct →
    |F - N| ≤ C * w * r → |T - t| ≤ Ct * w * r →
    |(if F > T then fl (y * fl (1 - fl (T / F))) else 0) - (if N > t then y * (1 - t / N) else 0)| ≤ K C Ct * w * r := by
  refine ⟨fun C Ct => 2 * (C + Ct + 20) + 1 + 1, fun C Ct h1 h2 => by positivity, ?_⟩
  intro fl u eta w r hs y N F T t C Ct hy hN ht hT hC hCt hF hTt
  have hw := hs.w_nonneg
  have hr := hs.r_ge
  have hN0 : 0 ≤ N := (abs_nonneg y).trans hy
  have hwr : 0 ≤ w * r := mul_nonneg hw (by linarith)
  have hsize : |(if N > t then y * (1 - t / N) else 0)| ≤ 1 * r := by
    split_ifs with h
    · have hNp : 0 < N := by linarith
      have h3 : t / N ≤ 1 := by rw [div_le_one hNp]; linarith
      have h4 : 0 ≤ t / N := by positivity
      rw [abs_mul, abs_of_nonneg (by linarith : 0 ≤ 1 - t / N)]
      have := mul_le_mul hy (by linarith : 1 - t / N ≤ 1) (by linarith) hN0
      linarith
    · rw [abs_zero]; linarith
  by_cases hFT : F > T
  · rw [if_pos hFT]
    have hF0 : 0 < F := by linarith
    have hq := softBlock_error (t := t) hy ht hT hFT
    have hz : 0 ≤ T / F := by positivity
    have hz1 : T / F ≤ 1 := by rw [div_le_one hF0]; linarith
    have c1 : Close w 1 0 1 (T / F) (T / F) := Close.self hs.one (by rw [abs_of_nonneg hz]; exact hz1)
    have c2 : Close w 1 0 1 (1 : ℝ) 1 := Close.self hs.one (by simp)
    have c3 := ((c2.sub (c1.round hs.one)).round hs.one).err
    have h1 : |y * fl (1 - fl (T / F)) - y * (1 - T / F)| ≤ 20 * w * r := by
      rw [← mul_sub, abs_mul]
      have h2 := mul_le_mul (hy.trans hN) c3 (abs_nonneg _) (by linarith)
      refine h2.trans ?_
      norm_num
      nlinarith
    have h2 : y * (1 - T / F) = y - T * y / F := by ring
    rw [h2] at h1
    have c4 : Close w r (C + Ct + 20) 1 (y * fl (1 - fl (T / F))) (if N > t then y * (1 - t / N) else 0) := by
      refine ⟨?_, hsize, by positivity, zero_le_one⟩
      have := abs_sub_le (y * fl (1 - fl (T / F))) (y - T * y / F) (if N > t then y * (1 - t / N) else 0)
      linarith
    exact (c4.round hs).err
  · rw [if_neg hFT, zero_sub, abs_neg]
    push Not at hFT
    have hmain : |(if N > t then y * (1 - t / N) else 0)| ≤ |F - N| + |T - t| := by
      split_ifs with h
      · have hNp : 0 < N := by linarith
        have h3 : t / N ≤ 1 := by rw [div_le_one hNp]; linarith
        rw [abs_mul, abs_of_nonneg (by linarith : 0 ≤ 1 - t / N)]
        have h4 := mul_le_mul_of_nonneg_right hy (by linarith : 0 ≤ 1 - t / N)
        have h5 : N * (1 - t / N) = N - t := by field_simp
        have := neg_abs_le (F - N)
        have := le_abs_self (T - t)
        linarith
      · rw [abs_zero]; positivity
    have h1 : 0 ≤ (C + Ct + 42) * (w * r) := by positivity
    linarith

/-- `_prox_gl`. -/
theorem groupKernel_error {alpha step : ℝ} (ha : 0 ≤ alpha) (hstep : 0 ≤ step) (n p : ℕ) : ∃ K, 0 ≤ K ∧ ∀ (fl : ℝ → ℝ) (u eta w : ℝ), Scale fl u eta w 1 →
    ∀ {G : List (List ℕ)} {B : BlockState p}, BInv G G B → ∀ (m : ℕ) (d : Fin m → ℝ) (hs : List ℕ) (v z : Fin p → ℝ), (∀ h, 0 ≤ d h ∧ d h ≤ n + 1) → hs.Nodup →
      GroupL1.kernel alpha B d step hs v = some z →
      ∃ z', GroupL1.flKernel fl alpha B (fun h => fl (d h)) step hs v = some z' ∧ ∀ c, |z' c - z c| ≤ K * w * (1 + norm2 v) := by
  obtain ⟨C, T, hC, hT, hthr⟩ := thr_close alpha step n
  obtain ⟨Cn, hCn, hnorm⟩ := flBlockNorm_close p
  obtain ⟨Kf, hKf, hsoft⟩ := softBlock_fl
  refine ⟨Kf Cn C, hKf _ _ hCn hC, ?_⟩
  obtain ⟨K, hK⟩ : ∃ K, K = Kf Cn C := ⟨_, rfl⟩
  have hK0 : 0 ≤ K := by rw [hK]; exact hKf _ _ hCn hC
  rw [← hK]
  intro fl u eta w hs1 G B hI m d row0 v z hd hnd hz
  have hs := norm2_scale hs1 v
  have hr : 0 ≤ 1 + norm2 v := by linarith [norm2_nonneg' v]
  have hw := hs1.w_nonneg
  have hbn : B.bp ≤ p := hI.hbp.trans hI.hfp
  suffices H : ∀ (row : List ℕ) (x x' z : Fin p → ℝ), row.Nodup → (∀ h ∈ row, h < B.bp → ∀ c : Fin p, c.val ∈ B.blk h → x c = v c ∧ x' c = v c) → (∀ c, |x' c - x c| ≤ K * w * (1 + norm2 v)) →
      GroupL1.kernel alpha B d step row x = some z → ∃ z', GroupL1.flKernel fl alpha B (fun h => fl (d h)) step row x' = some z' ∧ ∀ c, |z' c - z c| ≤ K * w * (1 + norm2 v) from
    H row0 v v z hnd (fun _ _ _ _ _ => ⟨rfl, rfl⟩) (fun c => by rw [sub_self, abs_zero]; positivity) hz
  intro row
  induction row with
  | nil =>
    intro x x' z _ _ he hz
    rw [GroupL1.kernel] at hz
    obtain rfl := Option.some.inj hz
    exact ⟨x', rfl, he⟩
  | cons h row ih =>
    intro x x' z hnd hv he hz
    have hnd' := List.nodup_cons.mp hnd
    by_cases hbp : B.bp < h
    · simp [GroupL1.kernel, hbp] at hz
    by_cases hlt : getD0 B.indptr h < p
    swap
    · exfalso
      have hr1 := rd_eq_getD0 B.indptr (i := h) (by omega)
      have hr3 : rd B.data (getD0 B.indptr h) = none := by simp [rd, hlt]
      simp [GroupL1.kernel, hbp, hr1, hr3] at hz
    have hr1 := rd_eq_getD0 B.indptr (i := h) (by omega)
    have hr3 := rd_eq_getD0 B.data (i := getD0 B.indptr h) hlt
    by_cases hflag : getD0 B.data (getD0 B.indptr h) ≤ 0
    · have e1 : GroupL1.kernel alpha B d step (h :: row) x = GroupL1.kernel alpha B d step row x := by
        simp only [GroupL1.kernel, hr1, hr3, if_pos hflag, Option.bind_eq_bind, Option.bind_some, if_neg hbp]
      have e2 : GroupL1.flKernel fl alpha B (fun h => fl (d h)) step (h :: row) x' = GroupL1.flKernel fl alpha B (fun h => fl (d h)) step row x' := by
        simp only [GroupL1.flKernel, hr1, hr3, if_pos hflag, Option.bind_eq_bind, Option.bind_some, if_neg hbp]
      rw [e1] at hz
      rw [e2]
      exact ih x x' z hnd'.2 (fun k hk => hv k (List.mem_cons_of_mem _ hk)) he hz
    · by_cases hbp1 : B.bp < h + 1
      · exfalso
        simp [GroupL1.kernel, hr1, hr3, hflag, hbp, hbp1] at hz
      have hhb : h < B.bp := by omega
      have hr2 := rd_eq_getD0 B.indptr (i := h + 1) (by omega)
      by_cases hm : h < m
      swap
      · exfalso
        have hr4 : rd d h = none := by simp [rd, hm]
        simp [GroupL1.kernel, hr1, hr2, hr3, hr4, hflag, hbp, hbp1] at hz
      have hr4 := rd_lt d hm
      have hr4' := rd_lt (fun h => fl (d h)) hm
      have hblt := hI.blk_lt hhb
      have hndb : (B.blk h).Nodup := List.nodup_range'
      have hvh := hv h List.mem_cons_self hhb
      obtain ⟨dh, hdh⟩ : ∃ dh, dh = d ⟨h, hm⟩ := ⟨_, rfl⟩
      obtain ⟨sq, hsq, hcn⟩ := hnorm fl u eta w hs1 x' v (B.blk h) hndb hblt fun c hc => (hvh c hc).2
      have ht := (hthr fl u eta w _ dh hs (by rw [hdh]; exact (hd _).1) (by rw [hdh]; exact (hd _).2)).2
      obtain ⟨t, htd⟩ : ∃ t, t = alpha * (step * dh) := ⟨_, rfl⟩
      obtain ⟨T', hTd⟩ : ∃ T', T' = fl (alpha * fl (step * fl dh)) := ⟨_, rfl⟩
      have hdh0 : 0 ≤ dh := by rw [hdh]; exact (hd _).1
      have ht0 : 0 ≤ t := by rw [htd]; positivity
      have hT0 : 0 ≤ T' := by
        rw [hTd]
        exact hs.rnd.nonneg (mul_nonneg ha (hs.rnd.nonneg (mul_nonneg hstep (hs.rnd.nonneg hdh0))))
      have hnx : √(0 + ∑ i ∈ featSet (B.blk h), x i ^ 2) = blockNorm (featSet (B.blk h)) v := by
        rw [zero_add, blockNorm, Finset.sum_congr rfl fun i hi => by rw [(hvh i (mem_featSet.mp hi)).1]]
      obtain ⟨N, hN⟩ : ∃ N, N = blockNorm (featSet (B.blk h)) v := ⟨_, rfl⟩
      have e1 : GroupL1.kernel alpha B d step (h :: row) x = GroupL1.kernel alpha B d step row (fun i => if i.val ∈ B.blk h then (if N > t then x i * (1 - t / N) else 0) else x i) := by
        have hq := sumSqLoop_spec x (B.blk h) 0 hndb hblt
        have m1 := fun f => mapLoop_spec f (B.blk h) x hndb hblt
        unfold BlockState.blk at hq hnx m1 hN ⊢
        rw [← hN] at hnx
        simp only [GroupL1.kernel, hr1, hr2, hr3, hr4, if_neg hflag, Option.bind_eq_bind, Option.bind_some, if_neg hbp, if_neg hbp1, hq, hnx, m1, ← hdh, ← htd]
        split_ifs <;> rfl
      have e2 : GroupL1.flKernel fl alpha B (fun h => fl (d h)) step (h :: row) x' = GroupL1.flKernel fl alpha B (fun h => fl (d h)) step row
          (fun i => if i.val ∈ B.blk h then (if fl √sq > T' then fl (x' i * fl (1 - fl (T' / fl √sq))) else 0) else x' i) := by
        have m1 := fun f => mapLoop_spec f (B.blk h) x' hndb hblt
        unfold BlockState.blk at hsq m1 ⊢
        simp only [GroupL1.flKernel, hr1, hr2, hr3, hr4', if_neg hflag, Option.bind_eq_bind, Option.bind_some, if_neg hbp, if_neg hbp1, hsq, m1, ← hdh, ← hTd]
        split_ifs <;> rfl
      rw [e1] at hz
      rw [e2]
      refine ih _ _ z hnd'.2 (fun k hk hkb c hc => ?_) (fun c => ?_) hz
      · have hne : c.val ∉ B.blk h := fun hc' => hI.blk_disjoint hhb hkb (fun he => hnd'.1 (he ▸ hk)) _ hc' hc
        rw [if_neg hne, if_neg hne]
        exact hv k (List.mem_cons_of_mem _ hk) hkb c hc
      · by_cases hc : c.val ∈ B.blk h
        · rw [if_pos hc, if_pos hc, (hvh c hc).1, (hvh c hc).2, hK]
          refine hsoft fl u eta w _ hs (v c) N (fl √sq) T' t Cn C ?_ ?_ ht0 hT0 hCn hC ?_ ?_
          · rw [hN]; exact abs_le_blockNorm (mem_featSet.mpr hc)
          · rw [hN]; linarith [blockNorm_le_norm2 (featSet (B.blk h)) v]
          · rw [hN]; exact hcn.err
          · rw [hTd, htd]; exact ht.err
        · rw [if_neg hc, if_neg hc]
          exact he c

/-- The computed derivatives. -/
theorem VRLoss.flDeriv_error (l : VRLoss) {b : Fin n → ℝ} (hb : l.Labels b) : ∃ K, 0 ≤ K ∧ ∀ (fl fexp : ℝ → ℝ) (u eta w : ℝ), Scale fl u eta w 1 → 10 * w ≤ 1 → FlExp fexp w →
    ∀ i t, |l.flDeriv fl fexp t (b i) - l.deriv t (b i)| ≤ K * w * (1 + |t|) := by
  cases l with
  | log =>
    refine ⟨200, by norm_num, fun fl fexp u eta w hs hw he i t => ?_⟩
    have h1 := flExpitB_error hs he hw (hb i) t
    have hw0 := hs.w_nonneg
    rw [VRLoss.deriv_log]
    refine le_trans h1 ?_
    have := mul_nonneg hw0 (abs_nonneg t)
    linarith
  | square =>
    refine ⟨2 + ∑ i, |b i|, by positivity, fun fl fexp u eta w hs hw he i t => ?_⟩
    have hw0 := hs.w_nonneg
    have h1 := hs.rnd.err (t - b i)
    have h2 : |t - b i| ≤ |t| + ∑ i, |b i| := (abs_sub _ _).trans (add_le_add le_rfl (Finset.single_le_sum (f := fun i => |b i|) (fun i _ => abs_nonneg _) (Finset.mem_univ i)))
    have h3 := mul_le_mul hs.u_le h2 (abs_nonneg _) hw0
    have h4 := hs.eta_le'
    have h5 : VRLoss.square.deriv t (b i) = t - b i := rfl
    rw [h5]
    have h6 : 0 ≤ ∑ i, |b i| := by positivity
    have h7 := mul_nonneg hw0 (abs_nonneg t)
    have h8 := mul_nonneg (mul_nonneg h6 hw0) (abs_nonneg t)
    have h9 : VRLoss.square.flDeriv fl fexp t (b i) = fl (t - b i) := rfl
    rw [h9]
    nlinarith

/-- The arguments built with the computed oracles are the exact ones with accurate oracles. -/
theorem flVrCall_ok (l : VRLoss) (A : Fin n → Fin p → ℝ) {b : Fin n → ℝ} (hb : l.Labels b) (x0 : Fin p → ℝ) {step : ℝ} (hstep : 0 ≤ step) {pen : VRPen} (hpen : pen.Good p) (alpha : ℝ) {P : VRArgs ℝ n p}
    {maxIter0 : ℕ} {tol0 : ℝ} {order0 : ℕ → List ℕ} (hcall : vrCall l A b x0 (some step) pen alpha maxIter0 tol0 order0 = some P) :
    ∃ K, 0 ≤ K ∧ ∀ (fl fexp : ℝ → ℝ) (u eta w tol : ℝ) (order : ℕ → List ℕ) (maxIter : ℕ), Scale fl u eta w 1 → 10 * w ≤ 1 → FlExp fexp w →
      ∃ fp, flVrCall fl fexp l A b x0 (some step) pen alpha maxIter tol order = some (P.flWith (l.flDeriv fl fexp) fp order tol maxIter) ∧
        FlVROracles P step fl (l.flDeriv fl fexp) fp K w := by
  obtain ⟨K1, hK1, hder⟩ := l.flDeriv_error hb
  have key : ∃ K, 0 ≤ K ∧ ∀ bp, pen.factory p = some bp → ∀ (fl : ℝ → ℝ) (u eta w : ℝ), Scale fl u eta w 1 → ∃ fp, pen.flFactory fl p = some (bp.1, fp) ∧
      ∀ (m : ℕ) (d : Fin m → ℝ) (hs : List ℕ) (v z : Fin p → ℝ), (∀ h, 0 ≤ d h ∧ d h ≤ n + 1) → hs.Nodup → bp.2 m d step hs v = some z →
        ∃ z', fp m (fun h => fl (d h)) step hs v = some z' ∧ ∀ c, |z' c - z c| ≤ K * w * (1 + norm2 v) := by
    cases pen with
    | none =>
      refine ⟨0, le_rfl, fun bp hbp fl u eta w hs => ⟨noProx, ?_, ?_⟩⟩
      · obtain rfl := Option.some.inj hbp
        rfl
      · obtain rfl := Option.some.inj hbp
        intro m d hs v z _ _ hz
        exact ⟨z, hz, fun c => by simp⟩
    | l1Norm beta =>
      obtain ⟨K, hK, h⟩ := l1Kernel_error beta step n p
      refine ⟨K, hK, fun bp hbp fl u eta w hs => ⟨fun _ d step hs x => L1Norm.flKernel fl beta d step hs x, ?_, ?_⟩⟩
      · obtain rfl := Option.some.inj hbp
        rfl
      · obtain rfl := Option.some.inj hbp
        exact h fl u eta w hs
    | groupL1 beta groups =>
      obtain ⟨hbeta, hG, hn⟩ := hpen
      obtain ⟨B, e, hI, hfp⟩ := GroupL1.blocks_inv hG hn
      obtain ⟨K, hK, h⟩ := groupKernel_error hbeta hstep n p
      refine ⟨K, hK, fun bp hbp fl u eta w hs => ⟨fun _ d step hs x => GroupL1.flKernel fl beta B d step hs x, ?_, ?_⟩⟩
      · simp only [VRPen.factory, e, Option.map_some] at hbp
        obtain rfl := Option.some.inj hbp
        simp only [VRPen.flFactory, e, Option.map_some]
      · simp only [VRPen.factory, e, Option.map_some] at hbp
        obtain rfl := Option.some.inj hbp
        exact h fl u eta w hs hI
  obtain ⟨K2, hK2, hpr⟩ := key
  refine ⟨K1 + K2, by positivity, fun fl fexp u eta w tol order maxIter hs hw he => ?_⟩
  have hw0 := hs.w_nonneg
  unfold vrCall at hcall
  simp only [Option.map_eq_some_iff] at hcall
  obtain ⟨bp, hbp, rfl⟩ := hcall
  obtain ⟨fp, hfp, hacc⟩ := hpr bp hbp fl u eta w hs
  refine ⟨fp, ?_, fun i t => ?_, fun m d hs' v z hd hnd hz => ?_⟩
  · unfold flVrCall
    rw [hfp]
    rfl
  · have h1 := hder fl fexp u eta w hs hw he i t
    refine h1.trans (mul_le_mul_of_nonneg_right (mul_le_mul_of_nonneg_right (by linarith) hw0) (by positivity))
  · obtain ⟨z', h1, h2⟩ := hacc m d hs' v z hd hnd hz
    refine ⟨z', h1, fun c => (h2 c).trans (mul_le_mul_of_nonneg_right (mul_le_mul_of_nonneg_right (by linarith) hw0) ?_)⟩
    linarith [norm2_nonneg' v]

end Copt
