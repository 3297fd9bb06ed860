import Verif.Spec.Nuclear
import Verif.Model.Trace
import Verif.Proof.PenaltyL1
import Verif.Props.Constraint

/-! # Helper lemmas on the nuclear norm -/

set_option linter.unusedSectionVars false

namespace Copt

open Spec Matrix

variable {M N k : ℕ}

theorem dot_eq_dotProduct {n : ℕ} (x y : Fin n → ℝ) : dot x y = x ⬝ᵥ y := rfl

theorem reshape_eq_unravel (x : Fin (M * N) → ℝ) : reshape M N x = unravel x := rfl

theorem unravel_ravel (A : Matrix (Fin M) (Fin N) ℝ) : unravel (ravel A) = A := by
  funext i j; simp [unravel, ravel]

theorem dot_eq_frob (x y : Fin (M * N) → ℝ) : dot x y = frob (unravel x) (unravel y) := by
  unfold dot frob unravel
  rw [← Equiv.sum_comp finProdFinEquiv, Fintype.sum_prod_type]

theorem unravel_sub (x y : Fin (M * N) → ℝ) : unravel (M := M) (N := N) (x - y) = unravel x - unravel y := rfl

theorem frob_eq_trace (A B : Matrix (Fin M) (Fin N) ℝ) : frob A B = Matrix.trace (Aᵀ * B) := by
  unfold frob
  rw [Finset.sum_comm]
  simp [Matrix.trace, Matrix.mul_apply]

theorem frob_sub_right (A B C : Matrix (Fin M) (Fin N) ℝ) : frob A (B - C) = frob A B - frob A C := by
  simp [frob_eq_trace, Matrix.mul_sub, Matrix.trace_sub]

theorem frob_comm (A B : Matrix (Fin M) (Fin N) ℝ) : frob A B = frob B A := by
  unfold frob; simp [mul_comm]

theorem frob_smul_left (c : ℝ) (A B : Matrix (Fin M) (Fin N) ℝ) : frob (c • A) B = c * frob A B := by
  unfold frob; simp [Finset.mul_sum, mul_assoc]

theorem frob_smul_right (c : ℝ) (A B : Matrix (Fin M) (Fin N) ℝ) : frob A (c • B) = c * frob A B := by
  rw [frob_comm, frob_smul_left, frob_comm]

/-- The bilinear form of a contraction is bounded by the norms. -/
theorem opBound_bilin {c : ℝ} (hc : 0 ≤ c) {Z : Matrix (Fin M) (Fin N) ℝ} (hZ : OpBound c Z)
    (u : Fin M → ℝ) (v : Fin N → ℝ) (hu : dot u u ≤ 1) (hv : dot v v ≤ 1) : dot u (Z *ᵥ v) ≤ c := by
  have h1 := dot_sq_le u (Z *ᵥ v)
  have h2 := hZ v
  refine le_of_sq_le_sq ?_ hc
  have h3 := dot_self_nonneg u
  have h4 := dot_self_nonneg v
  have h5 := dot_self_nonneg (Z *ᵥ v)
  have h6 : dot (Z *ᵥ v) (Z *ᵥ v) ≤ c ^ 2 := by nlinarith [sq_nonneg c]
  nlinarith

theorem frob_le_sum_abs {Y Z : Matrix (Fin M) (Fin N) ℝ} (hZ : OpBound 1 Z) :
    frob Y Z ≤ ∑ i, ∑ j, |Y i j| := by
  refine Finset.sum_le_sum fun i _ => Finset.sum_le_sum fun j _ => ?_
  have hu : ∀ (p : ℕ) (q : Fin p), dot (Pi.single q (1 : ℝ)) (Pi.single q 1) ≤ 1 := by
    intro p q; simp [dot_eq_dotProduct]
  have hb1 := opBound_bilin zero_le_one hZ (Pi.single i 1) (Pi.single j 1) (hu _ i) (hu _ j)
  have hn : dot (-(Pi.single i (1 : ℝ)) : Fin M → ℝ) (-(Pi.single i 1)) ≤ 1 := by
    simp [dot_eq_dotProduct]
  have hb2 := opBound_bilin zero_le_one hZ (-(Pi.single i 1)) (Pi.single j 1) hn (hu _ j)
  simp [dot_eq_dotProduct] at hb1 hb2
  have : |Z i j| ≤ 1 := abs_le.mpr ⟨by linarith, hb1⟩
  calc Y i j * Z i j ≤ |Y i j * Z i j| := le_abs_self _
    _ = |Y i j| * |Z i j| := abs_mul _ _
    _ ≤ |Y i j| * 1 := mul_le_mul_of_nonneg_left this (abs_nonneg _)
    _ = |Y i j| := mul_one _

theorem nuc_bddAbove (Y : Matrix (Fin M) (Fin N) ℝ) : BddAbove {r | ∃ Z, OpBound 1 Z ∧ r = frob Y Z} :=
  ⟨∑ i, ∑ j, |Y i j|, by rintro r ⟨Z, hZ, rfl⟩; exact frob_le_sum_abs hZ⟩

theorem opBound_zero (c : ℝ) : OpBound c (0 : Matrix (Fin M) (Fin N) ℝ) := by
  intro v
  have := dot_self_nonneg v
  have h0 : dot ((0 : Matrix (Fin M) (Fin N) ℝ) *ᵥ v) ((0 : Matrix (Fin M) (Fin N) ℝ) *ᵥ v) = 0 := by
    simp [dot_eq_dotProduct]
  rw [h0]; positivity

theorem frob_le_nuc (Y : Matrix (Fin M) (Fin N) ℝ) {Z : Matrix (Fin M) (Fin N) ℝ} (hZ : OpBound 1 Z) :
    frob Y Z ≤ nuc Y := le_csSup (nuc_bddAbove Y) ⟨Z, hZ, rfl⟩

theorem nuc_le {Y : Matrix (Fin M) (Fin N) ℝ} {a : ℝ} (h : ∀ Z, OpBound 1 Z → frob Y Z ≤ a) : nuc Y ≤ a :=
  csSup_le ⟨_, 0, opBound_zero 1, rfl⟩ (by rintro r ⟨Z, hZ, rfl⟩; exact h Z hZ)

theorem nuc_nonneg (Y : Matrix (Fin M) (Fin N) ℝ) : 0 ≤ nuc Y := by
  have := frob_le_nuc Y (opBound_zero 1)
  rw [frob_comm, ← zero_smul ℝ (0 : Matrix (Fin M) (Fin N) ℝ), frob_smul_left] at this
  simpa using this

theorem opBound_of_smul {c : ℝ} (hc : 0 < c) {Z : Matrix (Fin M) (Fin N) ℝ} (hZ : OpBound c Z) :
    OpBound 1 (c⁻¹ • Z) := by
  intro v
  have h := hZ v
  have e : dot ((c⁻¹ • Z) *ᵥ v) ((c⁻¹ • Z) *ᵥ v) = c⁻¹ ^ 2 * dot (Z *ᵥ v) (Z *ᵥ v) := by
    rw [Matrix.smul_mulVec, dot_smul_left, dot_smul_right]; ring
  rw [e]
  calc c⁻¹ ^ 2 * dot (Z *ᵥ v) (Z *ᵥ v) ≤ c⁻¹ ^ 2 * (c ^ 2 * dot v v) :=
        mul_le_mul_of_nonneg_left h (sq_nonneg _)
    _ = 1 ^ 2 * dot v v := by field_simp

/-- Hölder: `⟨Z, Y⟩ ≤ c * nuc Y` when the operator norm of `Z` is at most `c`. -/
theorem frob_le_mul_nuc {c : ℝ} (hc : 0 ≤ c) {Z : Matrix (Fin M) (Fin N) ℝ} (hZ : OpBound c Z)
    (Y : Matrix (Fin M) (Fin N) ℝ) : frob Z Y ≤ c * nuc Y := by
  rcases hc.lt_or_eq with hc | hc
  · have h := frob_le_nuc Y (opBound_of_smul hc hZ)
    rw [frob_smul_right, frob_comm Y Z] at h
    have : frob Z Y = c * (c⁻¹ * frob Z Y) := by field_simp
    rw [this]; exact mul_le_mul_of_nonneg_left h hc.le
  · subst hc
    have hz : Z = 0 := by
      ext i j
      have := hZ (Pi.single j 1)
      have h0 : dot (Z *ᵥ Pi.single j 1) (Z *ᵥ Pi.single j 1) = 0 :=
        le_antisymm (by simpa using this) (dot_self_nonneg _)
      have := congrFun (dot_self_eq_zero.mp h0) i
      simpa using this
    rw [hz, zero_mul]
    simp [frob]

theorem scaleDot_eq (U : Matrix (Fin M) (Fin k) ℝ) (t : Fin k → ℝ) (Vt : Matrix (Fin k) (Fin N) ℝ) :
    scaleDot U t Vt = U * Matrix.diagonal t * Vt := by
  unfold scaleDot
  congr 1
  ext i j
  simp [Matrix.mul_diagonal]

variable {U : Matrix (Fin M) (Fin k) ℝ} {Vt : Matrix (Fin k) (Fin N) ℝ}

theorem dot_mulVec_orth (hU : Uᵀ * U = 1) (w : Fin k → ℝ) : dot (U *ᵥ w) (U *ᵥ w) = dot w w := by
  rw [dot_eq_dotProduct, Matrix.dotProduct_mulVec, Matrix.vecMul_mulVec, hU, Matrix.vecMul_one,
    ← dot_eq_dotProduct]

/-- Bessel's inequality for orthonormal rows. -/
theorem dot_mulVec_rows (hV : Vt * Vtᵀ = 1) (v : Fin N → ℝ) : dot (Vt *ᵥ v) (Vt *ᵥ v) ≤ dot v v := by
  have h1 : dot (Vtᵀ *ᵥ (Vt *ᵥ v)) (Vtᵀ *ᵥ (Vt *ᵥ v)) = dot (Vt *ᵥ v) (Vt *ᵥ v) :=
    dot_mulVec_orth (by rw [Matrix.transpose_transpose]; exact hV) _
  have h2 : dot v (Vtᵀ *ᵥ (Vt *ᵥ v)) = dot (Vt *ᵥ v) (Vt *ᵥ v) := by
    rw [dot_eq_dotProduct, Matrix.dotProduct_mulVec, Matrix.vecMul_transpose, ← dot_eq_dotProduct]
  have h3 := dot_self_nonneg (v - Vtᵀ *ᵥ (Vt *ᵥ v))
  rw [dot_sub_left, dot_sub_right, dot_sub_right, h1, h2, dot_comm (Vtᵀ *ᵥ (Vt *ᵥ v)) v, h2] at h3
  linarith

theorem opBound_svd (hU : Uᵀ * U = 1) (hV : Vt * Vtᵀ = 1) {t : Fin k → ℝ} {c : ℝ} (ht : ∀ i, |t i| ≤ c) :
    OpBound c (U * Matrix.diagonal t * Vt) := by
  intro v
  rw [← Matrix.mulVec_mulVec, ← Matrix.mulVec_mulVec, dot_mulVec_orth hU]
  calc dot (diagonal t *ᵥ (Vt *ᵥ v)) (diagonal t *ᵥ (Vt *ᵥ v))
      = ∑ i, t i ^ 2 * (Vt *ᵥ v) i ^ 2 := by
        unfold dot; refine Finset.sum_congr rfl fun i _ => ?_
        rw [Matrix.mulVec_diagonal]; ring
    _ ≤ ∑ i, c ^ 2 * ((Vt *ᵥ v) i * (Vt *ᵥ v) i) := Finset.sum_le_sum fun i _ => by
        have : t i ^ 2 ≤ c ^ 2 := sq_le_sq' (by have := (abs_le.mp (ht i)).1; linarith) (abs_le.mp (ht i)).2
        nlinarith [sq_nonneg ((Vt *ᵥ v) i)]
    _ = c ^ 2 * dot (Vt *ᵥ v) (Vt *ᵥ v) := by rw [← Finset.mul_sum]; rfl
    _ ≤ c ^ 2 * dot v v := mul_le_mul_of_nonneg_left (dot_mulVec_rows hV v) (sq_nonneg _)

theorem frob_svd (t : Fin k → ℝ) (Z : Matrix (Fin M) (Fin N) ℝ) :
    frob (U * Matrix.diagonal t * Vt) Z = ∑ i, t i * dot (Uᵀ i) (Z *ᵥ Vt i) := by
  have h : frob (U * Matrix.diagonal t * Vt) Z = Matrix.trace (Matrix.diagonal t * (Uᵀ * Z * Vtᵀ)) := by
    rw [frob_eq_trace, Matrix.transpose_mul, Matrix.transpose_mul, Matrix.diagonal_transpose]
    rw [Matrix.mul_assoc, Matrix.trace_mul_comm, Matrix.mul_assoc, Matrix.mul_assoc, Matrix.mul_assoc]
  rw [h, Matrix.trace]
  refine Finset.sum_congr rfl fun i _ => ?_
  rw [Matrix.diag_apply, Matrix.diagonal_mul]
  congr 1
  rw [Matrix.mul_assoc, Matrix.mul_apply]
  unfold dot
  refine Finset.sum_congr rfl fun j _ => ?_
  congr 1

theorem unit_of_orthU (hU : Uᵀ * U = 1) (i : Fin k) : dot (Uᵀ i) (Uᵀ i) = 1 := by
  have := congrFun (congrFun hU i) i
  rw [Matrix.mul_apply, Matrix.one_apply_eq] at this
  exact this

theorem unit_of_orthV (hV : Vt * Vtᵀ = 1) (i : Fin k) : dot (Vt i) (Vt i) = 1 := by
  have := congrFun (congrFun hV i) i
  rw [Matrix.mul_apply, Matrix.one_apply_eq] at this
  exact this

theorem nuc_svd_le (hU : Uᵀ * U = 1) (hV : Vt * Vtᵀ = 1) (t : Fin k → ℝ) :
    nuc (U * Matrix.diagonal t * Vt) ≤ ∑ i, |t i| := by
  refine nuc_le fun Z hZ => ?_
  rw [frob_svd]
  refine Finset.sum_le_sum fun i _ => ?_
  have hu := unit_of_orthU hU i
  have hv := unit_of_orthV hV i
  have h1 := opBound_bilin zero_le_one hZ (Uᵀ i) (Vt i) hu.le hv.le
  have h2 := opBound_bilin zero_le_one hZ (-(Uᵀ i)) (Vt i)
    (by simpa [dot_eq_dotProduct] using hu.le) hv.le
  have h3 : dot (-(Uᵀ i)) (Z *ᵥ Vt i) = -dot (Uᵀ i) (Z *ᵥ Vt i) := by simp [dot_eq_dotProduct]
  rw [h3] at h2
  calc t i * dot (Uᵀ i) (Z *ᵥ Vt i) ≤ |t i * dot (Uᵀ i) (Z *ᵥ Vt i)| := le_abs_self _
    _ = |t i| * |dot (Uᵀ i) (Z *ᵥ Vt i)| := abs_mul _ _
    _ ≤ |t i| * 1 := mul_le_mul_of_nonneg_left (abs_le.mpr ⟨by linarith, h1⟩) (abs_nonneg _)
    _ = |t i| := mul_one _

theorem frob_svd_svd (hU : Uᵀ * U = 1) (hV : Vt * Vtᵀ = 1) (t r : Fin k → ℝ) :
    frob (U * Matrix.diagonal t * Vt) (U * Matrix.diagonal r * Vt) = ∑ i, t i * r i := by
  have h : frob (U * Matrix.diagonal t * Vt) (U * Matrix.diagonal r * Vt)
      = Matrix.trace (Matrix.diagonal t * Matrix.diagonal r) := by
    rw [frob_eq_trace, Matrix.transpose_mul, Matrix.transpose_mul, Matrix.diagonal_transpose]
    have e : Vtᵀ * (diagonal t * Uᵀ) * (U * diagonal r * Vt) = Vtᵀ * (diagonal t * (Uᵀ * U) * diagonal r * Vt) := by
      simp only [Matrix.mul_assoc]
    rw [e, hU, Matrix.mul_one, Matrix.trace_mul_comm, Matrix.mul_assoc, hV, Matrix.mul_one]
  rw [h, Matrix.diagonal_mul_diagonal, Matrix.trace_diagonal]

theorem svd_sub (t r : Fin k → ℝ) :
    U * Matrix.diagonal t * Vt - U * Matrix.diagonal r * Vt = U * Matrix.diagonal (t - r) * Vt := by
  rw [← Matrix.sub_mul, ← Matrix.mul_sub, Matrix.diagonal_sub]; rfl

end Copt
