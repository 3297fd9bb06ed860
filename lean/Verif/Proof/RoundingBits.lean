import Verif.Proof.Rounding
import Mathlib.Tactic.LinearCombination

/-! # Rounding to a given number of bits -/

namespace Copt

open Spec

variable {p : ℕ}

/-- Unit of the last place of the numbers of `p + 1` bits near `x`: `2 ^ (e - p)` with `2 ^ e ≤ |x| < 2 ^ (e + 1)`. -/
noncomputable def ulpBits (p : ℕ) (x : ℝ) : ℝ := 2 ^ (Int.log 2 |x| - p)

/-- Rounding to `p + 1` significant bits, ties away from zero; the exponent is unbounded. -/
noncomputable def flBits (p : ℕ) (x : ℝ) : ℝ := if 0 ≤ x then ulpBits p x * round (x / ulpBits p x) else -(ulpBits p x * round (-x / ulpBits p x))

theorem ulpBits_pos (p : ℕ) (x : ℝ) : 0 < ulpBits p x := zpow_pos (by norm_num) _

theorem ulpBits_neg (x : ℝ) : ulpBits p (-x) = ulpBits p x := by unfold ulpBits; rw [abs_neg]

theorem flBits_zero : flBits p 0 = 0 := by simp [flBits]

theorem flBits_neg (x : ℝ) : flBits p (-x) = -flBits p x := by
  rcases lt_trichotomy x 0 with h | h | h
  · rw [flBits, if_pos (by linarith), flBits, if_neg (by linarith), ulpBits_neg, neg_neg]
  · rw [h, neg_zero, flBits_zero, neg_zero]
  · rw [flBits, if_neg (by linarith), flBits, if_pos h.le, ulpBits_neg, neg_neg]

/-- Position of a positive number in its binade. -/
theorem ulpBits_bounds {x : ℝ} (hx : 0 < x) : 2 ^ p * ulpBits p x ≤ x ∧ x < 2 ^ (p + 1) * ulpBits p x := by
  have h1 := Int.zpow_log_le_self (b := 2) one_lt_two hx
  have h2 := Int.lt_zpow_succ_log_self (b := 2) one_lt_two x
  have e1 : (2 : ℝ) ^ p * ulpBits p x = 2 ^ Int.log 2 x := by
    unfold ulpBits
    rw [abs_of_pos hx, ← zpow_natCast, ← zpow_add₀ (by norm_num)]
    congr 1
    push_cast; ring
  have e2 : (2 : ℝ) ^ (p + 1) * ulpBits p x = 2 ^ (Int.log 2 x + 1) := by
    unfold ulpBits
    rw [abs_of_pos hx, ← zpow_natCast, ← zpow_add₀ (by norm_num)]
    congr 1
    push_cast; ring
  rw [e1, e2]
  exact ⟨by exact_mod_cast h1, by exact_mod_cast h2⟩

theorem flBits_pos {x : ℝ} (hx : 0 < x) : ∃ m : ℤ, flBits p x = ulpBits p x * m ∧ m = round (x / ulpBits p x) ∧ 2 ^ p ≤ m ∧ m ≤ 2 ^ (p + 1) := by
  obtain ⟨h1, h2⟩ := ulpBits_bounds hx
  have hu := ulpBits_pos p x
  have a1 : (2 : ℝ) ^ p ≤ x / ulpBits p x := by rw [le_div_iff₀ hu]; exact h1
  have a2 : x / ulpBits p x ≤ 2 ^ (p + 1) := by rw [div_le_iff₀ hu]; exact h2.le
  refine ⟨round (x / ulpBits p x), by rw [flBits, if_pos hx.le], rfl, ?_, ?_⟩
  · have := round_mono_real a1
    rw [show ((2 : ℝ) ^ p) = ((2 ^ p : ℤ) : ℝ) by norm_num, round_intCast] at this
    exact this
  · have := round_mono_real a2
    rw [show ((2 : ℝ) ^ (p + 1)) = ((2 ^ (p + 1) : ℤ) : ℝ) by norm_num, round_intCast] at this
    exact this

theorem flBits_err_pos {x : ℝ} (hx : 0 < x) : |flBits p x - x| ≤ 2⁻¹ ^ (p + 1) * x := by
  obtain ⟨h1, -⟩ := ulpBits_bounds (p := p) hx
  have hu := ulpBits_pos p x
  obtain ⟨m, e1, e2, -⟩ := flBits_pos hx
  have h3 := abs_sub_round (x / ulpBits p x)
  rw [← e2] at h3
  have h4 : flBits p x - x = -(ulpBits p x * (x / ulpBits p x - m)) := by rw [e1]; field_simp; ring
  rw [h4, abs_neg, abs_mul, abs_of_pos hu]
  calc ulpBits p x * |x / ulpBits p x - m| ≤ ulpBits p x * (1 / 2) := mul_le_mul_of_nonneg_left h3 hu.le
    _ = 2⁻¹ ^ (p + 1) * (2 ^ p * ulpBits p x) := by
      have : (2⁻¹ : ℝ) ^ p * 2 ^ p = 1 := by rw [← mul_pow]; norm_num
      rw [pow_succ]; linear_combination -(ulpBits p x / 2) * this
    _ ≤ 2⁻¹ ^ (p + 1) * x := mul_le_mul_of_nonneg_left h1 (by positivity)

/-- In the binade of `x`, integers times the unit are representable. -/
theorem flBits_int {x : ℝ} (hx : 0 < x) {m : ℤ} (hm : x = ulpBits p x * m) : flBits p x = x := by
  have hu := ulpBits_pos p x
  rw [flBits, if_pos hx.le]
  have : x / ulpBits p x = m := by rw [div_eq_iff hu.ne', mul_comm]; exact hm
  rw [this, round_intCast]
  exact hm.symm

theorem ulpBits_eq {x q : ℝ} {k : ℤ} (hq : q = 2 ^ k) (h1 : 2 ^ p * q ≤ x) (h2 : x < 2 ^ (p + 1) * q) : ulpBits p x = q := by
  have hqp : 0 < q := by rw [hq]; exact zpow_pos (by norm_num) _
  have hx : 0 < x := lt_of_lt_of_le (by positivity) h1
  have : Int.log 2 x = k + p := by
    refine le_antisymm ?_ ?_
    · have : x < (2 : ℝ) ^ (k + (p + 1)) := by
        rw [zpow_add₀ (by norm_num), ← hq, mul_comm]; exact_mod_cast h2
      have := (Int.lt_zpow_iff_log_lt (b := 2) one_lt_two hx).mp (by exact_mod_cast this)
      omega
    · refine (Int.zpow_le_iff_le_log (b := 2) one_lt_two hx).mp ?_
      have : (2 : ℝ) ^ (k + p) ≤ x := by
        rw [zpow_add₀ (by norm_num), ← hq, mul_comm]; exact_mod_cast h1
      exact_mod_cast this
  unfold ulpBits
  rw [abs_of_pos hx, this, hq]
  congr 1
  ring

theorem flBits_idem_pos {x : ℝ} (hx : 0 < x) : flBits p (flBits p x) = flBits p x := by
  have hu := ulpBits_pos p x
  obtain ⟨m, e1, -, m1, m2⟩ := flBits_pos hx
  have m1' : (2 : ℝ) ^ p ≤ m := by exact_mod_cast m1
  rw [e1]
  have hpos : 0 < ulpBits p x * m := mul_pos hu (lt_of_lt_of_le (by positivity) m1')
  rcases lt_or_eq_of_le m2 with h | h
  · have m2' : (m : ℝ) < 2 ^ (p + 1) := by exact_mod_cast h
    have hq : ulpBits p (ulpBits p x * m) = ulpBits p x := ulpBits_eq (k := Int.log 2 |x| - p) rfl (by nlinarith) (by nlinarith)
    exact flBits_int hpos (m := m) (by rw [hq])
  · have hm : (m : ℝ) = 2 ^ (p + 1) := by rw [h]; norm_num
    have hq : ulpBits p (ulpBits p x * m) = 2 * ulpBits p x := by
      refine ulpBits_eq (k := Int.log 2 |x| - p + 1) ?_ ?_ ?_
      · rw [zpow_add₀ (by norm_num), zpow_one, mul_comm]; rfl
      · rw [hm, pow_succ]; linarith
      · rw [hm, pow_succ]
        have : 0 < (2 : ℝ) ^ p * ulpBits p x := by positivity
        linarith
    refine flBits_int hpos (m := 2 ^ p) ?_
    rw [hq, hm]; push_cast; ring

theorem flBits_mono_pos {x y : ℝ} (hx : 0 < x) (hxy : x ≤ y) : flBits p x ≤ flBits p y := by
  have hy := lt_of_lt_of_le hx hxy
  have hux := ulpBits_pos p x
  have huy := ulpBits_pos p y
  obtain ⟨m, e1, e2, m1, m2⟩ := flBits_pos hx
  obtain ⟨k, f1, f2, k1, k2⟩ := flBits_pos hy
  have hlog : Int.log 2 x ≤ Int.log 2 y := Int.log_mono_right hx hxy
  rcases lt_or_eq_of_le hlog with h | h
  · have h1 : ulpBits p x * 2 ≤ ulpBits p y := by
      unfold ulpBits
      rw [abs_of_pos hx, abs_of_pos hy]
      calc (2 : ℝ) ^ (Int.log 2 x - p) * 2 = 2 ^ (Int.log 2 x - p + 1) := by rw [zpow_add₀ (by norm_num), zpow_one]
        _ ≤ 2 ^ (Int.log 2 y - p) := zpow_le_zpow_right₀ (by norm_num) (by omega)
    have a1 : (m : ℝ) ≤ 2 ^ (p + 1) := by exact_mod_cast m2
    have a2 : (2 : ℝ) ^ p ≤ k := by exact_mod_cast k1
    rw [e1, f1]
    calc ulpBits p x * m ≤ ulpBits p x * 2 ^ (p + 1) := mul_le_mul_of_nonneg_left a1 hux.le
      _ = ulpBits p x * 2 * 2 ^ p := by ring
      _ ≤ ulpBits p y * 2 ^ p := mul_le_mul_of_nonneg_right h1 (by positivity)
      _ ≤ ulpBits p y * k := mul_le_mul_of_nonneg_left a2 huy.le
  · have h1 : ulpBits p x = ulpBits p y := by unfold ulpBits; rw [abs_of_pos hx, abs_of_pos hy, h]
    rw [e1, f1, e2, f2, h1]
    refine mul_le_mul_of_nonneg_left ?_ huy.le
    exact_mod_cast round_mono_real (div_le_div_of_nonneg_right hxy huy.le)

theorem flBits_nonneg {x : ℝ} (hx : 0 ≤ x) : 0 ≤ flBits p x := by
  rcases eq_or_lt_of_le hx with h | h
  · rw [← h, flBits_zero]
  · obtain ⟨m, e1, -, m1, -⟩ := flBits_pos h
    rw [e1]
    have : (2 : ℝ) ^ p ≤ m := by exact_mod_cast m1
    exact mul_nonneg (ulpBits_pos p x).le (le_trans (by positivity) this)

/-- Rounding to `p + 1` bits satisfies the standard model with `u = 2^-(p+1)`. -/
theorem flBits_rounding {eta : ℝ} (he : 0 ≤ eta) : Rounding (flBits p) (2⁻¹ ^ (p + 1)) eta where
  mono := by
    intro x y hxy
    rcases lt_trichotomy x 0 with hx | hx | hx
    · rcases le_or_gt 0 y with hy | hy
      · have h1 := flBits_nonneg (p := p) (x := -x) (by linarith)
        rw [flBits_neg] at h1
        linarith [flBits_nonneg (p := p) hy]
      · have := flBits_mono_pos (p := p) (x := -y) (y := -x) (by linarith) (by linarith)
        rw [flBits_neg, flBits_neg] at this
        linarith
    · rw [hx, flBits_zero]; exact flBits_nonneg (by linarith)
    · exact flBits_mono_pos hx hxy
  idem := by
    intro x
    rcases lt_trichotomy x 0 with hx | hx | hx
    · have := flBits_idem_pos (p := p) (x := -x) (by linarith)
      rw [flBits_neg, flBits_neg] at this
      linarith
    · rw [hx, flBits_zero, flBits_zero]
    · exact flBits_idem_pos hx
  neg := flBits_neg
  err := by
    intro x
    refine le_trans ?_ (le_add_of_nonneg_right he)
    rcases lt_trichotomy x 0 with hx | hx | hx
    · have := flBits_err_pos (p := p) (x := -x) (by linarith)
      rw [flBits_neg, show -flBits p x - -x = -(flBits p x - x) by ring, abs_neg] at this
      rwa [abs_of_neg hx]
    · rw [hx, flBits_zero]; simp
    · rw [abs_of_pos hx]; exact flBits_err_pos hx
  u_nonneg := by positivity
  eta_nonneg := he

theorem fl64_eq_flBits : fl64 = flBits 52 := rfl

end Copt
