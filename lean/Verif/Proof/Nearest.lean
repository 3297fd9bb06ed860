import Verif.Spec.Nearest
import Verif.Proof.RoundingBits

/-! # Rounding to the nearest floating-point number -/

namespace Copt

open Spec

variable {p : ℕ} {rd : ℝ → ℝ}

theorem isFloat_flBits (x : ℝ) : IsFloat p (flBits p x) := by
  have key : ∀ x : ℝ, 0 < x → IsFloat p (flBits p x) := by
    intro x hx
    obtain ⟨m, e1, -, m1, m2⟩ := flBits_pos (p := p) hx
    refine ⟨m, Int.log 2 |x| - p, ?_, ?_⟩
    · rw [abs_of_nonneg (le_trans (by positivity) m1)]; exact m2
    · rw [e1, mul_comm]; rfl
  rcases lt_trichotomy x 0 with hx | hx | hx
  · obtain ⟨m, e, h1, h2⟩ := key (-x) (by linarith)
    refine ⟨-m, e, by rwa [abs_neg], ?_⟩
    rw [flBits_neg] at h2
    push_cast
    linarith
  · exact ⟨0, 0, by simp, by rw [hx, flBits_zero]; simp⟩
  · exact key x hx

theorem isFloat_neg {y : ℝ} (h : IsFloat p y) : IsFloat p (-y) := by
  obtain ⟨m, e, h1, h2⟩ := h
  exact ⟨-m, e, by rwa [abs_neg], by rw [h2]; push_cast; ring⟩

namespace Spec.Nearest

variable (hr : Nearest p rd)

include hr

theorem fix {y : ℝ} (h : IsFloat p y) : rd y = y := by
  have := hr.near y y h
  rw [sub_self, abs_zero] at this
  exact sub_eq_zero.mp (abs_eq_zero.mp (le_antisymm this (abs_nonneg _)))

theorem monotone : Monotone rd := by
  intro x y hxy
  by_contra hlt
  push Not at hlt
  have h1 := hr.near x (rd y) (hr.mem y)
  have h2 := hr.near y (rd x) (hr.mem x)
  have h3 : x = y := by
    refine le_antisymm hxy ?_
    have a1 := sq_le_sq.mpr h1
    have a2 := sq_le_sq.mpr h2
    nlinarith
  rw [h3] at hlt
  exact lt_irrefl _ hlt

theorem err (x : ℝ) : |rd x - x| ≤ 2⁻¹ ^ (p + 1) * |x| := by
  have h1 := hr.near x _ (isFloat_flBits x)
  have h2 := (flBits_rounding (p := p) (eta := 0) le_rfl).err x
  linarith

theorem rounding : Rounding rd (2⁻¹ ^ (p + 1)) 0 :=
  ⟨hr.monotone, fun x => hr.fix (hr.mem x), hr.neg, fun x => by rw [add_zero]; exact hr.err x, by positivity, le_rfl⟩

/-- The nearest number is found: `y` has the unit of the binade of `x` and is closer than half a unit. -/
theorem eq {x : ℝ} {m e : ℤ} (h1 : 2 ^ p ≤ m) (h2 : m ≤ 2 ^ (p + 1)) (hlow : 2 ^ p * (2 : ℝ) ^ e ≤ x) (h : |x - m * (2 : ℝ) ^ e| < (2 : ℝ) ^ e / 2) : rd x = m * (2 : ℝ) ^ e := by
  have hq : 0 < (2 : ℝ) ^ e := zpow_pos (by norm_num) _
  have hm0 : (0 : ℤ) ≤ m := le_trans (by positivity) h1
  have hy : IsFloat p (m * (2 : ℝ) ^ e) := ⟨m, e, by rwa [abs_of_nonneg hm0], rfl⟩
  have hp : IsFloat p (2 ^ p * (2 : ℝ) ^ e) := ⟨2 ^ p, e, by rw [abs_of_nonneg (by positivity), pow_succ]; linarith [show (0 : ℤ) < 2 ^ p by positivity], by push_cast; ring⟩
  have hge : 2 ^ p * (2 : ℝ) ^ e ≤ rd x := by
    have := hr.monotone hlow
    rwa [hr.fix hp] at this
  -- the rounded number is a multiple of the unit
  obtain ⟨j, hj⟩ : ∃ j : ℤ, rd x = j * (2 : ℝ) ^ e := by
    obtain ⟨m', e', a1, a2⟩ := hr.mem x
    rcases le_or_gt e e' with he | he
    · obtain ⟨i, hi⟩ := Int.le.dest he
      refine ⟨m' * 2 ^ i, ?_⟩
      rw [a2, ← hi, zpow_add₀ (by norm_num), zpow_natCast]
      push_cast; ring
    · have hq' : 0 < (2 : ℝ) ^ e' := zpow_pos (by norm_num) _
      obtain ⟨i, hi⟩ := Int.le.dest he.le
      have hi1 : 1 ≤ i := by omega
      have e1 : (2 : ℝ) ^ e = 2 ^ e' * 2 ^ i := by rw [← hi, zpow_add₀ (by norm_num), zpow_natCast]
      have a3 : (m' : ℝ) ≤ 2 ^ (p + 1) := by exact_mod_cast (le_abs_self m').trans a1
      have a4 : (2 : ℝ) ^ p * 2 ^ i ≤ m' := by
        have : 2 ^ p * 2 ^ i * (2 : ℝ) ^ e' ≤ m' * 2 ^ e' := by rw [← a2]; rw [e1] at hge; linarith
        exact le_of_mul_le_mul_right this hq'
      have a5 : (2 : ℝ) ^ (p + 1) ≤ 2 ^ p * 2 ^ i := by
        rw [pow_succ]
        refine mul_le_mul_of_nonneg_left ?_ (by positivity)
        calc (2 : ℝ) = 2 ^ 1 := by norm_num
          _ ≤ 2 ^ i := pow_le_pow_right₀ (by norm_num) hi1
      have a6 : (m' : ℝ) = 2 ^ p * 2 ^ i := le_antisymm (a3.trans a5) a4
      refine ⟨2 ^ p, ?_⟩
      rw [a2, a6, e1]; push_cast; ring
  have h3 := hr.near x _ hy
  have h4 : |rd x - m * (2 : ℝ) ^ e| < (2 : ℝ) ^ e := by
    have : rd x - m * (2 : ℝ) ^ e = (rd x - x) + (x - m * (2 : ℝ) ^ e) := by ring
    rw [this]
    refine (abs_add_le _ _).trans_lt ?_
    rw [abs_sub_comm (m * (2 : ℝ) ^ e) x] at h3
    linarith
  rw [hj] at h4 ⊢
  have h5 : |((j - m : ℤ) : ℝ)| < 1 := by
    have : ((j : ℝ) - m) * 2 ^ e = j * 2 ^ e - m * 2 ^ e := by ring
    rw [← this, abs_mul, abs_of_pos hq] at h4
    push_cast
    exact (mul_lt_iff_lt_one_left hq).mp h4
  have h6 : j - m = 0 := by
    have : |j - m| < 1 := by exact_mod_cast h5
    exact Int.abs_lt_one_iff.mp this
  rw [show j = m by omega]

end Spec.Nearest

/-- Rounding with ties away from zero is an example. -/
theorem nearest_flBits : Nearest p (flBits p) := by
  refine ⟨isFloat_flBits, ?_, flBits_neg⟩
  have key : ∀ x : ℝ, 0 < x → ∀ y, IsFloat p y → |flBits p x - x| ≤ |y - x| := by
    intro x hx y hy
    have hu := ulpBits_pos p x
    obtain ⟨b1, b2⟩ := ulpBits_bounds (p := p) hx
    obtain ⟨m, e1, e2, m1, m2⟩ := flBits_pos (p := p) hx
    have hround : ∀ j : ℤ, |flBits p x - x| ≤ |ulpBits p x * j - x| := by
      intro j
      have h3 := round_le (x / ulpBits p x) j
      rw [← e2] at h3
      have f1 : ∀ i : ℤ, |ulpBits p x * i - x| = ulpBits p x * |x / ulpBits p x - i| := by
        intro i
        rw [abs_sub_comm, ← abs_of_pos hu, ← abs_mul, abs_of_pos hu]
        congr 1
        field_simp
      rw [e1, f1, f1]
      exact mul_le_mul_of_nonneg_left h3 hu.le
    by_cases hlow : 2 ^ p * ulpBits p x ≤ y
    · -- a multiple of the unit
      obtain ⟨k, i, c1, c2⟩ := hy
      have hq' : 0 < (2 : ℝ) ^ i := zpow_pos (by norm_num) _
      obtain ⟨j, hj⟩ : ∃ j : ℤ, y = ulpBits p x * j := by
        rcases le_or_gt (Int.log 2 |x| - p) i with he | he
        · obtain ⟨l, hl⟩ := Int.le.dest he
          refine ⟨k * 2 ^ l, ?_⟩
          rw [c2, ← hl, zpow_add₀ (by norm_num), zpow_natCast]
          unfold ulpBits
          push_cast; ring
        · obtain ⟨l, hl⟩ := Int.le.dest he.le
          have hl1 : 1 ≤ l := by omega
          have g1 : ulpBits p x = 2 ^ i * 2 ^ l := by unfold ulpBits; rw [← hl, zpow_add₀ (by norm_num), zpow_natCast]
          have a3 : (k : ℝ) ≤ 2 ^ (p + 1) := by exact_mod_cast (le_abs_self k).trans c1
          have a4 : (2 : ℝ) ^ p * 2 ^ l ≤ k := by
            have : 2 ^ p * 2 ^ l * (2 : ℝ) ^ i ≤ k * 2 ^ i := by rw [← c2]; rw [g1] at hlow; linarith
            exact le_of_mul_le_mul_right this hq'
          have a5 : (2 : ℝ) ^ (p + 1) ≤ 2 ^ p * 2 ^ l := by
            rw [pow_succ]
            refine mul_le_mul_of_nonneg_left ?_ (by positivity)
            calc (2 : ℝ) = 2 ^ 1 := by norm_num
              _ ≤ 2 ^ l := pow_le_pow_right₀ (by norm_num) hl1
          have a6 : (k : ℝ) = 2 ^ p * 2 ^ l := le_antisymm (a3.trans a5) a4
          refine ⟨2 ^ p, ?_⟩
          rw [c2, a6, g1]; push_cast; ring
      rw [hj]; exact hround j
    · push Not at hlow
      refine (hround (2 ^ p)).trans ?_
      push_cast
      rw [abs_of_nonpos (by linarith), abs_of_nonpos (by linarith)]
      linarith
  intro x y hy
  rcases lt_trichotomy x 0 with hx | hx | hx
  · have := key (-x) (by linarith) (-y) (isFloat_neg hy)
    rw [flBits_neg, show -flBits p x - -x = -(flBits p x - x) by ring, show -y - -x = -(y - x) by ring, abs_neg, abs_neg] at this
    exact this
  · rw [hx, flBits_zero, sub_self, abs_zero]; exact abs_nonneg _
  · exact key x hx y hy

end Copt
