import Verif.Model.FloatFWSearch
import Verif.Proof.FloatFW
import Verif.Proof.FloatLineSearch

/-! # The line search of the Frank-Wolfe method in rounded arithmetic -/

set_option linter.unusedSectionVars false

namespace Copt

open Spec

variable {d : ℕ} {rd : ℝ → ℝ} {u w b : ℝ}

/-- The quotient `certificate / (norm_update_direction * lipschitz_t)`; `T` stands for the exact denominator. -/
theorem flFbQuot_error (hr : Rounding rd u 0) (hu : u ≤ w) (hwb : w ≤ b) (hb : b ≤ 1 / 1000) {c N Q lip : ℝ} (hc : 0 < c) (hQ : 0 < Q) (hl : 0 < lip) (h1 : (1 - b) * Q ≤ N) (h2 : N ≤ (1 + b) * Q) :
    0 < rd (N * lip) ∧ 0 < flFbQuot rd c N lip ∧ (1 - 4 * b) * c ≤ flFbQuot rd c N lip * (lip * Q) ∧ flFbQuot rd c N lip * (lip * Q) ≤ (1 + 4 * b) * c := by
  have hw0 : 0 ≤ w := hr.u_nonneg.trans hu
  have hb0 : 0 ≤ b := hw0.trans hwb
  have hN : 0 < N := lt_of_lt_of_le (mul_pos (by linarith) hQ) h1
  obtain ⟨T, hT⟩ : ∃ T, T = lip * Q := ⟨_, rfl⟩
  have hT0 : 0 < T := by rw [hT]; positivity
  have hNl : 0 < N * lip := by positivity
  obtain ⟨r, hre⟩ : ∃ r, r = rd (N * lip) := ⟨_, rfl⟩
  obtain ⟨r1, r2⟩ := rel_bounds hr hu hNl.le
  rw [← hre] at r1 r2
  have n1 : (1 - b) * T ≤ N * lip := by
    have := mul_le_mul_of_nonneg_right h1 hl.le
    rw [hT]; linarith
  have n2 : N * lip ≤ (1 + b) * T := by
    have := mul_le_mul_of_nonneg_right h2 hl.le
    rw [hT]; linarith
  have r3 : (1 - 2 * b) * T ≤ r := by
    have a1 : (1 - b) * ((1 - b) * T) ≤ (1 - w) * (N * lip) := mul_le_mul (by linarith) n1 (by apply mul_nonneg <;> linarith) (by linarith)
    have a2 : 0 ≤ b * b * T := by positivity
    linarith
  have r4 : r ≤ (1 + 3 * b) * T := by
    have a1 : (1 + w) * (N * lip) ≤ (1 + b) * ((1 + b) * T) := mul_le_mul (by linarith) n2 hNl.le (by linarith)
    have a2 : b * (b * T) ≤ 1 * (b * T) := mul_le_mul_of_nonneg_right (by linarith) (by positivity)
    linarith
  have r0 : 0 < r := lt_of_lt_of_le (mul_pos (by linarith) hT0) r3
  obtain ⟨q, hq⟩ : ∃ q, q = flFbQuot rd c N lip := ⟨_, rfl⟩
  have hqd : 0 < c / r := by positivity
  obtain ⟨q1, q2⟩ := rel_bounds hr hu hqd.le
  have hqe : rd (c / r) = q := by rw [hq, flFbQuot, hre]
  rw [hqe] at q1 q2
  have q0 : 0 < q := lt_of_lt_of_le (mul_pos (by linarith) hqd) q1
  have m1 : (1 - w) * c ≤ q * r := by
    have := mul_le_mul_of_nonneg_right q1 r0.le
    rwa [mul_assoc, div_mul_cancel₀ _ r0.ne'] at this
  have m2 : q * r ≤ (1 + w) * c := by
    have := mul_le_mul_of_nonneg_right q2 r0.le
    rwa [mul_assoc, div_mul_cancel₀ _ r0.ne'] at this
  rw [← hre, ← hq, ← hT]
  refine ⟨r0, q0, ?_, ?_⟩
  · have e1 := mul_le_mul_of_nonneg_left r4 q0.le
    have e2 : (1 - b) * c ≤ (1 + 3 * b) * (q * T) := by
      have : (1 - b) * c ≤ (1 - w) * c := mul_le_mul_of_nonneg_right (by linarith) hc.le
      linarith
    have e3 : (1 + 3 * b) * ((1 - 4 * b) * c) ≤ (1 + 3 * b) * (q * T) := by
      refine le_trans ?_ e2
      have : 0 ≤ b * b * c := by positivity
      linarith
    exact le_of_mul_le_mul_left e3 (by linarith)
  · have e1 := mul_le_mul_of_nonneg_left r3 q0.le
    have e2 : (1 - 2 * b) * (q * T) ≤ (1 + b) * c := by
      have : (1 + w) * c ≤ (1 + b) * c := mul_le_mul_of_nonneg_right (by linarith) hc.le
      linarith
    have e3 : (1 - 2 * b) * (q * T) ≤ (1 - 2 * b) * ((1 + 4 * b) * c) := by
      refine e2.trans ?_
      have : b * (b * c) ≤ 1 / 1000 * (b * c) := mul_le_mul_of_nonneg_right hb (by positivity)
      have : 0 ≤ b * c := by positivity
      linarith
    exact le_of_mul_le_mul_left e3 (by linarith)

/-- The model decrease `-s c + lip s² Q / 2` of the objective. -/
noncomputable def btModel (c Q lip s : ℝ) : ℝ := -s * c + 1 / 2 * lip * s ^ 2 * Q

/-- One trial: the step, the computed right-hand side and the decrease it stands for. -/
theorem flFb_trial (hr : Rounding rd u 0) (h1 : rd 1 = 1) (hu : u ≤ w) (hwb : w ≤ b) (hb : b ≤ 1 / 1000) {c N Q lip : ℝ} (hc : 0 < c) (hQ : 0 < Q) (hl : 0 < lip) (hN1 : (1 - b) * Q ≤ N)
    (hN2 : N ≤ (1 + b) * Q) : 0 < flFbStep rd c N lip 1 ∧ flFbStep rd c N lip 1 ≤ 1 ∧ |flFbRhs rd c N lip 1 - btModel c Q lip (flFbStep rd c N lip 1)| ≤ 8 * b * c ∧
      (btModel c Q lip (flFbStep rd c N lip 1) ≤ -(c / 2) + 5 * b * c ∨
        btModel c Q lip (flFbStep rd c N lip 1) ≤ -(c ^ 2 / (2 * (lip * Q))) + 5 * b * c ∧ 99 / 100 * c ≤ lip * Q) := by
  have hw0 : 0 ≤ w := hr.u_nonneg.trans hu
  have hb0 : 0 ≤ b := hw0.trans hwb
  have hbc : 0 ≤ b * c := by positivity
  obtain ⟨r0, q0, qa, qb⟩ := flFbQuot_error hr hu hwb hb hc hQ hl hN1 hN2
  obtain ⟨T, hT⟩ : ∃ T, T = lip * Q := ⟨_, rfl⟩
  have hT0 : 0 < T := by rw [hT]; positivity
  rw [← hT] at qa qb ⊢
  by_cases hs : flFbShort rd c N lip 1
  · have hlt := hs.2
    unfold flFbStep flFbRhs
    rw [if_pos hs, if_pos hs]
    obtain ⟨q, hq⟩ : ∃ q, q = flFbQuot rd c N lip := ⟨_, rfl⟩
    rw [← hq] at q0 qa qb hlt ⊢
    have hm : btModel c Q lip q = -q * c + 1 / 2 * q * (q * T) := by unfold btModel; rw [hT]; ring
    have hqc : q * c ≤ c := mul_le_of_le_one_left hc.le hlt.le
    have hqc0 : 0 < q * c := by positivity
    have hbq : b * (q * c) ≤ b * c := mul_le_mul_of_nonneg_left hqc hb0
    have hbq0 : 0 ≤ b * (q * c) := by positivity
    have e1 : |rd (rd (-(1 / 2) * q) * c) + 1 / 2 * (q * c)| ≤ 2 * (b * (q * c)) := by
      have a1 := rel_err hr hu (-(1 / 2) * q)
      rw [abs_mul, abs_neg, abs_of_pos (by norm_num : (0 : ℝ) < 1 / 2), abs_of_pos q0] at a1
      obtain ⟨z, hz⟩ : ∃ z, z = rd (-(1 / 2) * q) := ⟨_, rfl⟩
      rw [← hz] at a1 ⊢
      have a2 := rel_err hr hu (z * c)
      have a3 : |z * c + 1 / 2 * (q * c)| ≤ w * (1 / 2 * (q * c)) := by
        rw [show z * c + 1 / 2 * (q * c) = (z - -(1 / 2) * q) * c by ring, abs_mul, abs_of_pos hc]
        have := mul_le_mul_of_nonneg_right a1 hc.le
        linarith
      have a4 : |z * c| ≤ 1 / 2 * (q * c) + w * (1 / 2 * (q * c)) := by
        have := abs_sub_abs_le_abs_sub (z * c) (-(1 / 2 * (q * c)))
        rw [abs_neg, abs_of_pos (by positivity : 0 < 1 / 2 * (q * c)), sub_neg_eq_add] at this
        linarith
      have a5 : w * |z * c| ≤ w * (1 / 2 * (q * c) + w * (1 / 2 * (q * c))) := mul_le_mul_of_nonneg_left a4 hw0
      have a6 : w * (w * (q * c)) ≤ 1 / 1000 * (w * (q * c)) := mul_le_mul_of_nonneg_right (by linarith) (by positivity)
      have a7 : w * (q * c) ≤ b * (q * c) := mul_le_mul_of_nonneg_right hwb hqc0.le
      have a8 : 0 ≤ w * (q * c) := by positivity
      rw [show rd (z * c) + 1 / 2 * (q * c) = (rd (z * c) - z * c) + (z * c + 1 / 2 * (q * c)) by ring]
      refine (abs_add_le _ _).trans ?_
      linarith
    have e2 : |btModel c Q lip q + 1 / 2 * (q * c)| ≤ 2 * (b * (q * c)) := by
      rw [hm, show -q * c + 1 / 2 * q * (q * T) + 1 / 2 * (q * c) = 1 / 2 * q * (q * T - c) by ring, abs_mul, abs_of_pos (by positivity : 0 < 1 / 2 * q)]
      have : |q * T - c| ≤ 4 * b * c := by rw [abs_le]; constructor <;> linarith
      have := mul_le_mul_of_nonneg_left this (by positivity : 0 ≤ 1 / 2 * q)
      linarith
    refine ⟨q0, hlt.le, ?_, Or.inr ⟨?_, ?_⟩⟩
    · rw [show rd (rd (-(1 / 2) * q) * c) - btModel c Q lip q = (rd (rd (-(1 / 2) * q) * c) + 1 / 2 * (q * c)) - (btModel c Q lip q + 1 / 2 * (q * c)) by ring]
      refine (abs_sub _ _).trans ?_
      linarith
    · have a1 := (abs_le.mp e2).2
      have a2 : (1 - 4 * b) * (c ^ 2 / T) ≤ q * c := by
        have := mul_le_mul_of_nonneg_right qa (by positivity : 0 ≤ c / T)
        have e : q * T * (c / T) = q * c := by field_simp
        rw [e] at this
        have e' : (1 - 4 * b) * c * (c / T) = (1 - 4 * b) * (c ^ 2 / T) := by ring
        linarith
      have a3 : c ^ 2 / T ≤ 2 * c := by
        have : 1 / 2 * (c ^ 2 / T) ≤ (1 - 4 * b) * (c ^ 2 / T) := mul_le_mul_of_nonneg_right (by linarith) (by positivity)
        linarith
      have a4 : 1 / 2 * (c ^ 2 / T) ≤ 1 / 2 * (q * c) + 2 * (b * (c ^ 2 / T)) := by linarith
      have a5 : (c ^ 2 / T) ≤ 101 / 100 * c := by
        have : 995 / 1000 * (c ^ 2 / T) ≤ (1 - 4 * b) * (c ^ 2 / T) := mul_le_mul_of_nonneg_right (by linarith) (by positivity)
        linarith
      have a6 : b * (c ^ 2 / T) ≤ b * (101 / 100 * c) := mul_le_mul_of_nonneg_left a5 hb0
      have a7 : c ^ 2 / (2 * T) = 1 / 2 * (c ^ 2 / T) := by rw [mul_comm, ← div_div]; ring
      rw [a7]
      linarith
    · have : q * T ≤ T := mul_le_of_le_one_left hT0.le hlt.le
      have : 4 * b * c ≤ 4 * (1 / 1000) * c := mul_le_mul_of_nonneg_right (by linarith) hc.le
      linarith
  · have hge : 1 ≤ flFbQuot rd c N lip := by
      by_contra h
      exact hs ⟨r0.ne', not_le.mp h⟩
    unfold flFbStep flFbRhs
    rw [if_neg hs, if_neg hs]
    have hTc : T ≤ (1 + 4 * b) * c := le_trans (le_mul_of_one_le_left hT0.le hge) qb
    have hTc2 : T ≤ 1.01 * c := by
      have : 4 * b * c ≤ 4 * (1 / 1000) * c := mul_le_mul_of_nonneg_right (by linarith) hc.le
      linarith
    have hm : btModel c Q lip 1 = -c + 1 / 2 * T := by unfold btModel; rw [hT]; ring
    have hN0 : 0 ≤ N := le_trans (mul_nonneg (by linarith) hQ.le) hN1
    refine ⟨one_pos, le_rfl, ?_, Or.inl ?_⟩
    · rw [one_pow, h1, mul_one, hm, show -(1 : ℝ) * c = -c by ring]
      obtain ⟨h, hh⟩ : ∃ h, h = rd (1 / 2) := ⟨_, rfl⟩
      obtain ⟨a, ha⟩ : ∃ a, a = rd (h * lip) := ⟨_, rfl⟩
      obtain ⟨e, he⟩ : ∃ e, e = rd (a * N) := ⟨_, rfl⟩
      rw [← hh, ← ha, ← he]
      obtain ⟨h2, h3⟩ := rel_bounds hr hu (show (0 : ℝ) ≤ 1 / 2 by norm_num)
      rw [← hh] at h2 h3
      have h0 : 0 ≤ h := by linarith
      obtain ⟨a2, a3⟩ := rel_bounds hr hu (show 0 ≤ h * lip by positivity)
      rw [← ha] at a2 a3
      have a4 : (1 - 2 * b) * (1 / 2 * lip) ≤ a := by
        have t1 := mul_le_mul_of_nonneg_right h2 hl.le
        have t2 : (1 - b) * ((1 - b) * (1 / 2) * lip) ≤ (1 - w) * (h * lip) := by
          refine mul_le_mul (by linarith) (le_trans ?_ t1) ?_ (by linarith)
          · exact mul_le_mul_of_nonneg_right (by linarith) hl.le
          · exact mul_nonneg (by linarith) hl.le
        have : 0 ≤ b * b * lip := by positivity
        linarith
      have a5 : a ≤ (1 + 3 * b) * (1 / 2 * lip) := by
        have t1 := mul_le_mul_of_nonneg_right h3 hl.le
        have t2 : (1 + w) * (h * lip) ≤ (1 + b) * ((1 + b) * (1 / 2) * lip) := by
          refine mul_le_mul (by linarith) (le_trans t1 ?_) (by positivity) (by linarith)
          exact mul_le_mul_of_nonneg_right (by linarith) hl.le
        have : b * (b * lip) ≤ 1 * (b * lip) := mul_le_mul_of_nonneg_right (by linarith) (by positivity)
        linarith
      have a0 : 0 ≤ a := le_trans (mul_nonneg (by linarith) (by positivity)) a4
      obtain ⟨e2, e3⟩ := rel_bounds hr hu (show 0 ≤ a * N by positivity)
      rw [← he] at e2 e3
      have n1 : (1 - 3 * b) * (1 / 2 * T) ≤ a * N := by
        have := mul_le_mul a4 hN1 (mul_nonneg (by linarith) hQ.le) a0
        have h5 : (1 - 2 * b) * (1 / 2 * lip) * ((1 - b) * Q) = (1 - 2 * b) * (1 - b) * (1 / 2 * T) := by rw [hT]; ring
        have : 0 ≤ b * b * T := by positivity
        linarith
      have n2 : a * N ≤ (1 + 5 * b) * (1 / 2 * T) := by
        have := mul_le_mul a5 hN2 hN0 (by positivity)
        have h5 : (1 + 3 * b) * (1 / 2 * lip) * ((1 + b) * Q) = (1 + 3 * b) * (1 + b) * (1 / 2 * T) := by rw [hT]; ring
        have : b * (b * T) ≤ 1 / 1000 * (b * T) := mul_le_mul_of_nonneg_right hb (by positivity)
        have : 0 ≤ b * T := by positivity
        linarith
      have n3 : (1 - 4 * b) * (1 / 2 * T) ≤ e := by
        have t2 : (1 - b) * ((1 - 3 * b) * (1 / 2 * T)) ≤ (1 - w) * (a * N) := mul_le_mul (by linarith) n1 (mul_nonneg (by linarith) (by positivity)) (by linarith)
        have : 0 ≤ b * b * T := by positivity
        linarith
      have n4 : e ≤ (1 + 7 * b) * (1 / 2 * T) := by
        have t2 : (1 + w) * (a * N) ≤ (1 + b) * ((1 + 5 * b) * (1 / 2 * T)) := mul_le_mul (by linarith) n2 (by positivity) (by linarith)
        have : b * (b * T) ≤ 1 / 1000 * (b * T) := mul_le_mul_of_nonneg_right hb (by positivity)
        have : 0 ≤ b * T := by positivity
        linarith
      have hbT : b * T ≤ b * (1.01 * c) := mul_le_mul_of_nonneg_left hTc2 hb0
      have z1 := rel_err hr hu (-c)
      rw [abs_neg, abs_of_pos hc] at z1
      obtain ⟨y, hy⟩ : ∃ y, y = rd (-c) := ⟨_, rfl⟩
      rw [← hy] at z1 ⊢
      have hwc : w * c ≤ b * c := mul_le_mul_of_nonneg_right hwb hc.le
      have z2 : |y + e - (-c + 1 / 2 * T)| ≤ 5 * (b * c) := by
        rw [abs_le] at z1 ⊢
        constructor <;> linarith [z1.1, z1.2]
      have z3 : |y + e| ≤ 2 * c := by
        have t : b * c ≤ 1 / 1000 * c := mul_le_mul_of_nonneg_right hb hc.le
        rw [abs_le] at z2 ⊢
        constructor <;> linarith [z2.1, z2.2]
      have z4 := rel_err hr hu (y + e)
      have z5 : w * |y + e| ≤ b * (2 * c) := mul_le_mul hwb z3 (abs_nonneg _) hb0
      rw [show rd (y + e) - (-c + 1 / 2 * T) = (rd (y + e) - (y + e)) + (y + e - (-c + 1 / 2 * T)) by ring]
      refine (abs_add_le _ _).trans ?_
      linarith
    · rw [hm]
      linarith

/-- A comparison of rounded numbers. -/
theorem rd_le_rd (hr : Rounding rd u 0) (hu : u ≤ w) (hw : w ≤ 1 / 2) {A B : ℝ} (h : rd A ≤ rd B) : A ≤ B + 4 * w * |B| := by
  have hw0 : 0 ≤ w := hr.u_nonneg.trans hu
  rcases le_total A B with hAB | hAB
  · have : 0 ≤ 4 * w * |B| := by positivity
    linarith
  · have h1 := (abs_le.mp (rel_err hr hu A)).1
    have h2 := (abs_le.mp (rel_err hr hu B)).2
    have h3 : |A| ≤ |B| + (A - B) := by
      have := abs_sub_abs_le_abs_sub A B
      rw [abs_of_nonneg (by linarith : 0 ≤ A - B)] at this
      linarith
    have h4 := mul_le_mul_of_nonneg_left h3 hw0
    have h5 : w * (A - B) ≤ 1 / 2 * (A - B) := mul_le_mul_of_nonneg_right hw (by linarith)
    linarith

/-- The first estimate of a search. -/
theorem flFbInit_bounds (hr : Rounding rd u 0) (hu : u ≤ 1 / 1000) {lip : ℝ} (hl : 0 < lip) (oldF : Option ℝ) (fT cert normD : ℝ) :
    89 / 100 * lip ≤ flFbInit rd oldF fT cert normD lip ∧ flFbInit rd oldF fT cert normD lip ≤ lip := by
  cases oldF with
  | none => exact ⟨by show 89 / 100 * lip ≤ lip; linarith, le_rfl⟩
  | some o =>
    obtain ⟨h1, h2⟩ := rel_bounds hr hu (show (0 : ℝ) ≤ 9 / 10 by norm_num)
    obtain ⟨n, hn⟩ : ∃ n, n = rd (9 / 10) := ⟨_, rfl⟩
    rw [← hn] at h1 h2
    obtain ⟨h3, h4⟩ := rel_bounds hr hu (show 0 ≤ lip * n from mul_nonneg hl.le (by linarith))
    have h5 : lip * ((1 - 1 / 1000) * (9 / 10)) ≤ lip * n := mul_le_mul_of_nonneg_left h1 hl.le
    have h6 : lip * n ≤ lip * ((1 + 1 / 1000) * (9 / 10)) := mul_le_mul_of_nonneg_left h2 hl.le
    unfold flFbInit
    simp only
    rw [← hn]
    refine ⟨le_max_of_le_right (by linarith), max_le ?_ (by linarith)⟩
    split_ifs
    · exact le_rfl
    · exact min_le_right _ _

/-- A search in which every estimate of at least `L` is accepted ends without a warning.  What it returns belongs to an accepted trial. -/
theorem flFbLoop_spec (hr : Rounding rd u 0) (hu : u ≤ 1 / 1000) (value : ℕ → (Fin d → ℝ) → ℝ) (grad : ℕ → (Fin d → ℝ) → Fin d → ℝ) (x D : Fin d → ℝ) (fT cert normD : ℝ) {L : ℝ}
    (hacc : ∀ i lip, 0 < lip → L ≤ lip → rd (value i (flFbPoint rd x D (flFbStep rd cert normD lip 1)) - fT) ≤ rd (flFbRhs rd cert normD lip 1 + fwEPS)) :
    ∀ k i lip, 0 < lip → L ≤ (199 / 100) ^ k * lip → ∃ j l, lip ≤ l ∧ l ≤ max lip (201 / 100 * L) ∧
      rd (value j (flFbPoint rd x D (flFbStep rd cert normD l 1)) - fT) ≤ rd (flFbRhs rd cert normD l 1 + fwEPS) ∧
      flFbLoop rd value grad x D fT cert normD 1 k i lip = ⟨flFbStep rd cert normD l 1, l, flFbPoint rd x D (flFbStep rd cert normD l 1), value j (flFbPoint rd x D (flFbStep rd cert normD l 1)),
        grad j (flFbPoint rd x D (flFbStep rd cert normD l 1)), false⟩ := by
  intro k
  induction k with
  | zero =>
    intro i lip hl hL
    rw [pow_zero, one_mul] at hL
    have h := hacc i lip hl hL
    refine ⟨i, lip, le_rfl, le_max_left _ _, h, ?_⟩
    rw [flFbLoop]
    rw [if_pos h]
  | succ k ih =>
    intro i lip hl hL
    by_cases h : rd (value i (flFbPoint rd x D (flFbStep rd cert normD lip 1)) - fT) ≤ rd (flFbRhs rd cert normD lip 1 + fwEPS)
    · refine ⟨i, lip, le_rfl, le_max_left _ _, h, ?_⟩
      rw [flFbLoop]
      rw [if_pos h]
    · have hlt : lip < L := by
        by_contra h'
        exact h (hacc i lip hl (not_lt.mp h'))
      obtain ⟨h1, h2⟩ := rel_bounds hr hu (show 0 ≤ lip * 2 by positivity)
      obtain ⟨j, l, a1, a2, a3, a4⟩ := ih (i + 1) (rd (lip * 2)) (by linarith) (by
        have : (199 / 100 : ℝ) ^ k * (199 / 100 * lip) ≤ (199 / 100) ^ k * rd (lip * 2) := mul_le_mul_of_nonneg_left (by linarith) (by positivity)
        rw [pow_succ] at hL
        linarith)
      refine ⟨j, l, by linarith, a2.trans (max_le (le_max_of_le_right (by linarith)) (le_max_right _ _)), a3, ?_⟩
      rw [flFbLoop]
      rw [if_neg h]
      exact a4

/-- The computed squared norm of the direction. -/
theorem flNormSq_error (hr : Rounding rd u 0) (hu : u ≤ w) (hd : 4 * d * w ≤ 1 / 1000) (hw : w ≤ 1 / 1000) {D : Fin d → ℝ} {s : ℝ} (h : FlNorm rd D s) :
    (1 - (8 * d + 8) * w) * dot D D ≤ rd (s ^ 2) ∧ rd (s ^ 2) ≤ (1 + (8 * d + 8) * w) * dot D D := by
  obtain ⟨q, hq, rfl⟩ := h
  have hw0 : 0 ≤ w := hr.u_nonneg.trans hu
  have hd0 : (0 : ℝ) ≤ d := Nat.cast_nonneg d
  have hdw : 0 ≤ d * w := by positivity
  have hdu : 4 * d * u ≤ 1 := le_trans (mul_le_mul_of_nonneg_left hu (by positivity)) (by linarith)
  have h1 := hq.error_vec hr hdu
  have hQ0 : 0 ≤ dot D D := Finset.sum_nonneg fun j _ => mul_self_nonneg _
  have h2 : ∑ j, |D j * D j| = dot D D := Finset.sum_congr rfl fun j _ => abs_of_nonneg (mul_self_nonneg _)
  have h3 : ∑ j, D j * D j = dot D D := rfl
  rw [h2, h3, add_zero] at h1
  obtain ⟨Q, hQ⟩ : ∃ Q, Q = dot D D := ⟨_, rfl⟩
  rw [← hQ] at h1 hQ0 ⊢
  have h4 : 4 * d * (u * Q) ≤ 4 * d * w * Q := by
    have := mul_le_mul_of_nonneg_left (mul_le_mul_of_nonneg_right hu hQ0) (show (0 : ℝ) ≤ 4 * d by positivity)
    linarith
  rw [abs_le] at h1
  have q1 : (1 - 4 * d * w) * Q ≤ q := by linarith [h1.1]
  have q2 : q ≤ (1 + 4 * d * w) * Q := by linarith [h1.2]
  have q0 : 0 ≤ q := le_trans (mul_nonneg (by linarith) hQ0) q1
  obtain ⟨s, hs⟩ : ∃ s, s = rd (Real.sqrt q) := ⟨_, rfl⟩
  obtain ⟨s1, s2⟩ := rel_bounds hr hu (Real.sqrt_nonneg q)
  rw [← hs] at s1 s2 ⊢
  have s0 : 0 ≤ s := by rw [hs]; exact hr.nonneg (Real.sqrt_nonneg q)
  have e1 : (1 - w) ^ 2 * q ≤ s ^ 2 := by
    have := pow_le_pow_left₀ (mul_nonneg (by linarith) (Real.sqrt_nonneg q)) s1 2
    rwa [mul_pow, Real.sq_sqrt q0] at this
  have e2 : s ^ 2 ≤ (1 + w) ^ 2 * q := by
    have := pow_le_pow_left₀ s0 s2 2
    rwa [mul_pow, Real.sq_sqrt q0] at this
  obtain ⟨t1, t2⟩ := rel_bounds hr hu (sq_nonneg s)
  have w2 : 0 ≤ w * w := by positivity
  have w3 : w * w ≤ 1 / 1000 * w := mul_le_mul_of_nonneg_right hw hw0
  constructor
  · refine le_trans ?_ t1
    have a1 : (1 - w) * ((1 - w) ^ 2 * q) ≤ (1 - w) * s ^ 2 := mul_le_mul_of_nonneg_left e1 (by linarith)
    refine le_trans ?_ a1
    have a2 : 1 - 4 * w ≤ (1 - w) * (1 - w) ^ 2 := by nlinarith
    have a3 : (1 - 4 * w) * ((1 - 4 * d * w) * Q) ≤ (1 - w) * (1 - w) ^ 2 * q :=
      mul_le_mul a2 q1 (mul_nonneg (by linarith) hQ0) (mul_nonneg (by linarith) (sq_nonneg _))
    have a4 : 0 ≤ w * (4 * d * w) * Q := by positivity
    have a5 : 0 ≤ d * w * Q := by positivity
    have a6 : 0 ≤ w * Q := by positivity
    linarith
  · refine t2.trans ?_
    have a1 : (1 + w) * s ^ 2 ≤ (1 + w) * ((1 + w) ^ 2 * q) := mul_le_mul_of_nonneg_left e2 (by linarith)
    refine a1.trans ?_
    have a2 : (1 + w) * (1 + w) ^ 2 ≤ 1 + 4 * w := by nlinarith
    have a3 : (1 + w) * (1 + w) ^ 2 * q ≤ (1 + 4 * w) * ((1 + 4 * d * w) * Q) := mul_le_mul a2 q2 q0 (by linarith)
    have a4 : w * (4 * d * w) * Q ≤ 1 * (w * Q) := by
      have := mul_le_mul_of_nonneg_right (show 4 * d * w ≤ 1 by linarith) (show 0 ≤ w * Q by positivity)
      linarith
    have a5 : 0 ≤ d * w * Q := by positivity
    linarith

end Copt
