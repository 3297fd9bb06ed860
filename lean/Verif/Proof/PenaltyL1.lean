import Verif.Proof.Basic
import Verif.Model.Penalty

/-! # Helper lemmas for the l1 penalty -/

set_option linter.unusedSectionVars false

namespace Copt

open Spec

variable {K : Type} [Field K] [LinearOrder K] [IsStrictOrderedRing K] {n m : ℕ}

/-- The scalar expression `fmax(v - w, 0) - fmax(-v - w, 0)`. -/
def softE (w v : K) : K := max (v - w) 0 - max (-v - w) 0

theorem softE_subgrad {w : K} (hw : 0 ≤ w) (v y : K) :
    w * |softE w v| + (v - softE w v) * (y - softE w v) ≤ w * |y| := by
  unfold softE
  have hy1 := le_abs_self y
  have hy2 := neg_abs_le y
  rcases le_total (v - w) 0 with h1 | h1 <;> rcases le_total (-v - w) 0 with h2 | h2
  · rw [max_eq_right h1, max_eq_right h2]
    simp only [sub_self, abs_zero, mul_zero, sub_zero, zero_add]
    calc v * y ≤ |v * y| := le_abs_self _
      _ = |v| * |y| := abs_mul _ _
      _ ≤ w * |y| := mul_le_mul_of_nonneg_right (abs_le.mpr ⟨by linarith, by linarith⟩) (abs_nonneg _)
  · rw [max_eq_right h1, max_eq_left h2]
    rw [abs_of_nonpos (by linarith : (0 : K) - (-v - w) ≤ 0)]
    nlinarith
  · rw [max_eq_left h1, max_eq_right h2]
    rw [abs_of_nonneg (by linarith : (0 : K) ≤ v - w - 0)]
    nlinarith
  · have : w = 0 := by linarith
    subst this
    have : v = 0 := by linarith
    subst this; simp

theorem softE_isUniqueMin {w : K} (hw : 0 ≤ w) (v : K) :
    IsUniqueMin Set.univ (fun t : K => w * |t| + (t - v) ^ 2 / 2) (softE w v) := by
  refine ⟨trivial, fun y _ hne => ?_⟩
  have h := softE_subgrad hw v y
  have h2 : 0 < (y - softE w v) ^ 2 := by
    have : y - softE w v ≠ 0 := sub_ne_zero.mpr hne
    positivity
  show w * |softE w v| + (softE w v - v) ^ 2 / 2 < w * |y| + (y - v) ^ 2 / 2
  nlinarith

theorem L1Norm.kernel_spec (alpha : K) (d : Fin m → K) (step : K) :
    ∀ (row : List ℕ) (x : Fin n → K), row.Nodup → (∀ j ∈ row, j < n ∧ j < m) →
      ∃ x', L1Norm.kernel alpha d step row x = some x' ∧
        ∀ i : Fin n, x' i = if h : i.val ∈ row ∧ i.val < m then
          softE (alpha * d ⟨i.val, h.2⟩ * step) (x i) else x i := by
  intro row
  induction row with
  | nil => intro x _ _; exact ⟨x, rfl, fun i => by simp⟩
  | cons j row ih =>
    intro x hnd hb
    obtain ⟨hjn, hjm⟩ := hb j List.mem_cons_self
    have hnd' := List.nodup_cons.mp hnd
    obtain ⟨x', hx', hspec⟩ := ih (Function.update x ⟨j, hjn⟩
      (softE (alpha * d ⟨j, hjm⟩ * step) (x ⟨j, hjn⟩))) hnd'.2
      (fun k hk => hb k (List.mem_cons_of_mem _ hk))
    refine ⟨x', ?_, ?_⟩
    · simp only [L1Norm.kernel, rd_lt _ hjn, rd_lt _ hjm, wr_lt _ hjn, Option.bind_eq_bind, Option.bind_some]
      exact hx'
    · intro i
      rw [hspec i]
      by_cases hi : i.val = j
      · have hi' : i = ⟨j, hjn⟩ := Fin.ext hi
        subst hi'
        simp [hnd'.1, hjm]
      · have hi' : i ≠ ⟨j, hjn⟩ := fun h => hi (congrArg Fin.val h)
        simp [hi, hi']

/-! ### Lists of consecutive integers -/

theorem diffAllOne_iff : ∀ (a : ℕ) (l : List ℕ),
    diffAllOne (a :: l) = true ↔ a :: l = List.range' a (l.length + 1)
  | a, [] => by simp [diffAllOne]
  | a, b :: l => by
    have ih := diffAllOne_iff b l
    simp only [diffAllOne, Bool.and_eq_true, beq_iff_eq, List.length_cons]
    rw [List.range'_succ]
    constructor
    · rintro ⟨h1, h2⟩
      have hb : b = a + 1 := by omega
      rw [ih.mp h2, hb]
    · intro h
      have h1 := List.cons.inj h
      have h2 := h1.2
      rw [List.range'_succ] at h2
      have h3 := List.cons.inj h2
      refine ⟨by omega, ih.mpr ?_⟩
      rw [h1.2, h3.1]

end Copt
