import Verif.Spec.Rounding
import Mathlib.Data.Int.Log
import Mathlib.Data.Real.Archimedean
import Mathlib.Tactic.Linarith
import Mathlib.Tactic.Positivity
import Mathlib.Tactic.Ring
import Mathlib.Tactic.FieldSimp

/-! # Rounded arithmetic: basic facts, and binary64 rounding as an instance -/

namespace Copt

open Spec

namespace Spec

variable {rd : ℝ → ℝ} {u eta : ℝ}

theorem Rounding.zero (h : Rounding rd u eta) : rd 0 = 0 := by
  have := h.neg 0
  rw [neg_zero] at this
  linarith

theorem Rounding.nonneg (h : Rounding rd u eta) {x : ℝ} (hx : 0 ≤ x) : 0 ≤ rd x := by
  have := h.mono hx
  rwa [h.zero] at this

theorem Rounding.nonpos (h : Rounding rd u eta) {x : ℝ} (hx : x ≤ 0) : rd x ≤ 0 := by
  have := h.mono hx
  rwa [h.zero] at this

/-- A strict comparison of rounded values holds for the exact ones. -/
theorem Rounding.lt (h : Rounding rd u eta) {x y : ℝ} (hxy : rd x < rd y) : x < y := by
  by_contra hc
  exact absurd (h.mono (not_lt.mp hc)) (not_le.mpr hxy)

theorem abs_sum_le_sum_abs : ∀ l : List ℝ, |l.sum| ≤ (l.map abs).sum
  | [] => by simp
  | a :: l => by
    rw [List.sum_cons, List.map_cons, List.sum_cons]
    exact (abs_add_le _ _).trans (by linarith [abs_sum_le_sum_abs l])

theorem sum_abs_nonneg (l : List ℝ) : 0 ≤ (l.map abs).sum := (abs_nonneg _).trans (abs_sum_le_sum_abs l)

theorem FlSum.pos {l : List ℝ} {a : ℝ} (h : FlSum rd l a) : 0 < l.length := by
  induction h with
  | single x => simp
  | add h1 h2 i1 i2 => rw [List.length_append]; omega
  | perm hp h ih => rwa [← hp.length_eq]

/-- Error of a sum, whatever the order of the additions. -/
theorem FlSum.error {l : List ℝ} {a : ℝ} (h : FlSum rd l a) (hr : Rounding rd u eta) (hl : 2 * l.length * u ≤ 1) :
    |a - l.sum| ≤ 2 * ((l.length : ℝ) - 1) * (u * (l.map abs).sum + eta) := by
  have hu := hr.u_nonneg
  have he := hr.eta_nonneg
  induction h with
  | single x => simp
  | perm hp h ih =>
    rw [← hp.sum_eq, ← (hp.map abs).sum_eq, ← hp.length_eq]
    exact ih (by rw [hp.length_eq]; exact hl)
  | @add l l' a b h1 h2 i1 i2 =>
    have p1 : (1 : ℝ) ≤ l.length := by exact_mod_cast h1.pos
    have p2 : (1 : ℝ) ≤ l'.length := by exact_mod_cast h2.pos
    rw [List.length_append, Nat.cast_add] at hl ⊢
    rw [List.sum_append, List.map_append, List.sum_append]
    have e1 := i1 (by nlinarith)
    have e2 := i2 (by nlinarith)
    have A0 := sum_abs_nonneg l
    have B0 := sum_abs_nonneg l'
    have As := abs_sum_le_sum_abs l
    have Bs := abs_sum_le_sum_abs l'
    set A := (l.map abs).sum
    set B := (l'.map abs).sum
    have e3 := hr.err (a + b)
    set T := u * (A + B) + eta with hT
    have T0 : 0 ≤ T := by positivity
    have k1 : 2 * ((l.length : ℝ) - 1) * (u * A + eta) ≤ 2 * ((l.length : ℝ) - 1) * T :=
      mul_le_mul_of_nonneg_left (by rw [hT]; nlinarith) (by linarith)
    have k2 : 2 * ((l'.length : ℝ) - 1) * (u * B + eta) ≤ 2 * ((l'.length : ℝ) - 1) * T :=
      mul_le_mul_of_nonneg_left (by rw [hT]; nlinarith) (by linarith)
    set E := |a - l.sum| + |b - l'.sum| with hE
    have hE1 : E ≤ 2 * ((l.length : ℝ) + l'.length - 2) * T := by linarith
    have hab : |a + b| ≤ A + B + E := by
      have t1 : a + b = (l.sum + l'.sum) + ((a - l.sum) + (b - l'.sum)) := by ring
      rw [t1]
      refine (abs_add_le _ _).trans ?_
      have t2 := abs_add_le l.sum l'.sum
      have t3 := abs_add_le (a - l.sum) (b - l'.sum)
      linarith
    have h4 : |rd (a + b) - (l.sum + l'.sum)| ≤ E + |rd (a + b) - (a + b)| := by
      have t1 : rd (a + b) - (l.sum + l'.sum) = (rd (a + b) - (a + b)) + ((a - l.sum) + (b - l'.sum)) := by ring
      rw [t1]
      have t3 := abs_add_le (a - l.sum) (b - l'.sum)
      refine (abs_add_le _ _).trans ?_
      linarith
    have h5 : u * |a + b| ≤ u * (A + B) + u * E := by
      rw [← mul_add]; exact mul_le_mul_of_nonneg_left hab hu
    have h6 : u * E ≤ u * (2 * ((l.length : ℝ) + l'.length - 2) * T) := mul_le_mul_of_nonneg_left hE1 hu
    have h7 : u * (2 * ((l.length : ℝ) + l'.length - 2) * T) ≤ T := by
      have : u * (2 * ((l.length : ℝ) + l'.length - 2)) ≤ 1 := by nlinarith
      calc u * (2 * ((l.length : ℝ) + l'.length - 2) * T) = u * (2 * ((l.length : ℝ) + l'.length - 2)) * T := by ring
        _ ≤ 1 * T := mul_le_mul_of_nonneg_right this T0
        _ = T := one_mul T
    linarith

end Spec

/-! ### Binary64 rounding -/

theorem round_mono_real {x y : ℝ} (h : x ≤ y) : round x ≤ round y := by
  rw [round_eq, round_eq]
  exact Int.floor_mono (by linarith)

/-- Unit of the last place of the binary64 numbers near `x`: `2 ^ (e - 52)` with `2 ^ e ≤ |x| < 2 ^ (e + 1)`. -/
noncomputable def ulp64 (x : ℝ) : ℝ := 2 ^ (Int.log 2 |x| - 52)

/-- Rounding to 53 significant bits, ties away from zero; the exponent is unbounded. -/
noncomputable def fl64 (x : ℝ) : ℝ := if 0 ≤ x then ulp64 x * round (x / ulp64 x) else -(ulp64 x * round (-x / ulp64 x))

theorem ulp64_pos (x : ℝ) : 0 < ulp64 x := zpow_pos (by norm_num) _

theorem ulp64_neg (x : ℝ) : ulp64 (-x) = ulp64 x := by unfold ulp64; rw [abs_neg]

theorem fl64_zero : fl64 0 = 0 := by simp [fl64]

theorem fl64_neg (x : ℝ) : fl64 (-x) = -fl64 x := by
  rcases lt_trichotomy x 0 with h | h | h
  · rw [fl64, if_pos (by linarith), fl64, if_neg (by linarith), ulp64_neg, neg_neg]
  · rw [h, neg_zero, fl64_zero, neg_zero]
  · rw [fl64, if_neg (by linarith), fl64, if_pos h.le, ulp64_neg, neg_neg]

/-- Position of a positive number in its binade. -/
theorem ulp64_bounds {x : ℝ} (hx : 0 < x) : 2 ^ 52 * ulp64 x ≤ x ∧ x < 2 ^ 53 * ulp64 x := by
  have h1 := Int.zpow_log_le_self (b := 2) one_lt_two hx
  have h2 := Int.lt_zpow_succ_log_self (b := 2) one_lt_two x
  have e1 : (2 : ℝ) ^ 52 * ulp64 x = 2 ^ Int.log 2 x := by
    unfold ulp64
    rw [abs_of_pos hx, ← zpow_natCast, ← zpow_add₀ (by norm_num)]
    congr 1
    push_cast; ring
  have e2 : (2 : ℝ) ^ 53 * ulp64 x = 2 ^ (Int.log 2 x + 1) := by
    unfold ulp64
    rw [abs_of_pos hx, ← zpow_natCast, ← zpow_add₀ (by norm_num)]
    congr 1
    push_cast; ring
  rw [e1, e2]
  exact ⟨by exact_mod_cast h1, by exact_mod_cast h2⟩

theorem fl64_pos {x : ℝ} (hx : 0 < x) : ∃ m : ℤ, fl64 x = ulp64 x * m ∧ m = round (x / ulp64 x) ∧ 2 ^ 52 ≤ m ∧ m ≤ 2 ^ 53 := by
  obtain ⟨h1, h2⟩ := ulp64_bounds hx
  have hu := ulp64_pos x
  have a1 : (2 : ℝ) ^ 52 ≤ x / ulp64 x := by rw [le_div_iff₀ hu]; exact h1
  have a2 : x / ulp64 x ≤ 2 ^ 53 := by rw [div_le_iff₀ hu]; exact h2.le
  refine ⟨round (x / ulp64 x), by rw [fl64, if_pos hx.le], rfl, ?_, ?_⟩
  · have := round_mono_real a1
    rw [show ((2 : ℝ) ^ 52) = ((2 ^ 52 : ℤ) : ℝ) by norm_num, round_intCast] at this
    exact this
  · have := round_mono_real a2
    rw [show ((2 : ℝ) ^ 53) = ((2 ^ 53 : ℤ) : ℝ) by norm_num, round_intCast] at this
    exact this

theorem fl64_err_pos {x : ℝ} (hx : 0 < x) : |fl64 x - x| ≤ 2⁻¹ ^ 53 * x := by
  obtain ⟨h1, -⟩ := ulp64_bounds hx
  have hu := ulp64_pos x
  obtain ⟨m, e1, e2, -⟩ := fl64_pos hx
  have h3 := abs_sub_round (x / ulp64 x)
  rw [← e2] at h3
  have h4 : fl64 x - x = -(ulp64 x * (x / ulp64 x - m)) := by rw [e1]; field_simp; ring
  rw [h4, abs_neg, abs_mul, abs_of_pos hu]
  calc ulp64 x * |x / ulp64 x - m| ≤ ulp64 x * (1 / 2) := mul_le_mul_of_nonneg_left h3 hu.le
    _ = 2⁻¹ ^ 53 * (2 ^ 52 * ulp64 x) := by ring
    _ ≤ 2⁻¹ ^ 53 * x := mul_le_mul_of_nonneg_left h1 (by positivity)

/-- In the binade of `x`, integers times the unit are representable. -/
theorem fl64_int {x : ℝ} (hx : 0 < x) {m : ℤ} (hm : x = ulp64 x * m) : fl64 x = x := by
  have hu := ulp64_pos x
  rw [fl64, if_pos hx.le]
  have : x / ulp64 x = m := by rw [div_eq_iff hu.ne', mul_comm]; exact hm
  rw [this, round_intCast]
  exact hm.symm

theorem ulp64_eq {x q : ℝ} {k : ℤ} (hq : q = 2 ^ k) (h1 : 2 ^ 52 * q ≤ x) (h2 : x < 2 ^ 53 * q) : ulp64 x = q := by
  have hqp : 0 < q := by rw [hq]; exact zpow_pos (by norm_num) _
  have hx : 0 < x := lt_of_lt_of_le (by positivity) h1
  have : Int.log 2 x = k + 52 := by
    refine le_antisymm ?_ ?_
    · have : x < (2 : ℝ) ^ (k + 53) := by
        rw [zpow_add₀ (by norm_num), ← hq, mul_comm]; exact_mod_cast h2
      have := (Int.lt_zpow_iff_log_lt (b := 2) one_lt_two hx).mp (by exact_mod_cast this)
      omega
    · refine (Int.zpow_le_iff_le_log (b := 2) one_lt_two hx).mp ?_
      have : (2 : ℝ) ^ (k + 52) ≤ x := by
        rw [zpow_add₀ (by norm_num), ← hq, mul_comm]; exact_mod_cast h1
      exact_mod_cast this
  unfold ulp64
  rw [abs_of_pos hx, this, hq]
  congr 1
  ring

theorem fl64_idem_pos {x : ℝ} (hx : 0 < x) : fl64 (fl64 x) = fl64 x := by
  have hu := ulp64_pos x
  obtain ⟨m, e1, -, m1, m2⟩ := fl64_pos hx
  have m1' : (2 : ℝ) ^ 52 ≤ m := by exact_mod_cast m1
  rw [e1]
  have hpos : 0 < ulp64 x * m := mul_pos hu (lt_of_lt_of_le (by positivity) m1')
  rcases lt_or_eq_of_le m2 with h | h
  · have m2' : (m : ℝ) < 2 ^ 53 := by exact_mod_cast h
    have hq : ulp64 (ulp64 x * m) = ulp64 x := ulp64_eq (k := Int.log 2 |x| - 52) rfl (by nlinarith) (by nlinarith)
    exact fl64_int hpos (m := m) (by rw [hq])
  · have hm : (m : ℝ) = 2 ^ 53 := by rw [h]; norm_num
    have hq : ulp64 (ulp64 x * m) = 2 * ulp64 x := by
      refine ulp64_eq (k := Int.log 2 |x| - 52 + 1) ?_ ?_ ?_
      · rw [zpow_add₀ (by norm_num), zpow_one, mul_comm]; rfl
      · rw [hm]; nlinarith
      · rw [hm]; nlinarith
    refine fl64_int hpos (m := 2 ^ 52) ?_
    rw [hq, hm]; push_cast; ring

theorem fl64_mono_pos {x y : ℝ} (hx : 0 < x) (hxy : x ≤ y) : fl64 x ≤ fl64 y := by
  have hy := lt_of_lt_of_le hx hxy
  have hux := ulp64_pos x
  have huy := ulp64_pos y
  obtain ⟨m, e1, e2, m1, m2⟩ := fl64_pos hx
  obtain ⟨k, f1, f2, k1, k2⟩ := fl64_pos hy
  have hlog : Int.log 2 x ≤ Int.log 2 y := Int.log_mono_right hx hxy
  rcases lt_or_eq_of_le hlog with h | h
  · have h1 : ulp64 x * 2 ≤ ulp64 y := by
      unfold ulp64
      rw [abs_of_pos hx, abs_of_pos hy]
      calc (2 : ℝ) ^ (Int.log 2 x - 52) * 2 = 2 ^ (Int.log 2 x - 52 + 1) := by rw [zpow_add₀ (by norm_num), zpow_one]
        _ ≤ 2 ^ (Int.log 2 y - 52) := zpow_le_zpow_right₀ (by norm_num) (by omega)
    have a1 : (m : ℝ) ≤ 2 ^ 53 := by exact_mod_cast m2
    have a2 : (2 : ℝ) ^ 52 ≤ k := by exact_mod_cast k1
    rw [e1, f1]
    calc ulp64 x * m ≤ ulp64 x * 2 ^ 53 := mul_le_mul_of_nonneg_left a1 hux.le
      _ = ulp64 x * 2 * 2 ^ 52 := by ring
      _ ≤ ulp64 y * 2 ^ 52 := mul_le_mul_of_nonneg_right h1 (by positivity)
      _ ≤ ulp64 y * k := mul_le_mul_of_nonneg_left a2 huy.le
  · have h1 : ulp64 x = ulp64 y := by unfold ulp64; rw [abs_of_pos hx, abs_of_pos hy, h]
    rw [e1, f1, e2, f2, h1]
    refine mul_le_mul_of_nonneg_left ?_ huy.le
    exact_mod_cast round_mono_real (div_le_div_of_nonneg_right hxy huy.le)

theorem fl64_nonneg {x : ℝ} (hx : 0 ≤ x) : 0 ≤ fl64 x := by
  rcases eq_or_lt_of_le hx with h | h
  · rw [← h, fl64_zero]
  · obtain ⟨m, e1, -, m1, -⟩ := fl64_pos h
    rw [e1]
    have : (2 : ℝ) ^ 52 ≤ m := by exact_mod_cast m1
    exact mul_nonneg (ulp64_pos x).le (le_trans (by positivity) this)

/-- Binary64 rounding satisfies the standard model with `u = 2^-53`. -/
theorem fl64_rounding {eta : ℝ} (he : 0 ≤ eta) : Rounding fl64 (2⁻¹ ^ 53) eta where
  mono := by
    intro x y hxy
    rcases lt_trichotomy x 0 with hx | hx | hx
    · rcases le_or_gt 0 y with hy | hy
      · have h1 := fl64_nonneg (x := -x) (by linarith)
        rw [fl64_neg] at h1
        linarith [fl64_nonneg hy]
      · have := fl64_mono_pos (x := -y) (y := -x) (by linarith) (by linarith)
        rw [fl64_neg, fl64_neg] at this
        linarith
    · rw [hx, fl64_zero]; exact fl64_nonneg (by linarith)
    · exact fl64_mono_pos hx hxy
  idem := by
    intro x
    rcases lt_trichotomy x 0 with hx | hx | hx
    · have := fl64_idem_pos (x := -x) (by linarith)
      rw [fl64_neg, fl64_neg] at this
      linarith
    · rw [hx, fl64_zero, fl64_zero]
    · exact fl64_idem_pos hx
  neg := fl64_neg
  err := by
    intro x
    refine le_trans ?_ (le_add_of_nonneg_right he)
    rcases lt_trichotomy x 0 with hx | hx | hx
    · have := fl64_err_pos (x := -x) (by linarith)
      rw [fl64_neg, show -fl64 x - -x = -(fl64 x - x) by ring, abs_neg] at this
      rwa [abs_of_neg hx]
    · rw [hx, fl64_zero]; simp
    · rw [abs_of_pos hx]; exact fl64_err_pos hx
  u_nonneg := by positivity
  eta_nonneg := he

end Copt
