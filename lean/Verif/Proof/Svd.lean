import Verif.Props.Trace
import Mathlib.Analysis.Matrix.Spectrum
import Mathlib.Analysis.Matrix.PosDef
import Mathlib.Analysis.InnerProductSpace.PiL2

/-!
# Existence of the thin singular value decomposition

Shows that the contract on `scipy.linalg.svd` in the theorems on the trace norm and the trace ball is satisfiable for every shape.
-/

namespace Copt
open Spec Matrix
open scoped InnerProductSpace

variable {M N k : ℕ}

theorem isSvd_transpose {X : Matrix (Fin M) (Fin N) ℝ} {U : Matrix (Fin M) (Fin k) ℝ} {s : Fin k → ℝ} {Vt : Matrix (Fin k) (Fin N) ℝ}
    (h : IsSvd X U s Vt) : IsSvd Xᵀ Vtᵀ s Uᵀ where
  orthU := by rw [transpose_transpose]; exact h.orthV
  orthV := by rw [transpose_transpose]; exact h.orthU
  nonneg := h.nonneg
  eq := by rw [h.eq, transpose_mul, transpose_mul, diagonal_transpose, Matrix.mul_assoc]

/-- The vector as an element of Euclidean space. -/
noncomputable abbrev toE (v : Fin M → ℝ) : EuclideanSpace ℝ (Fin M) := WithLp.toLp 2 v

theorem inner_toE (v w : Fin M → ℝ) : ⟪toE v, toE w⟫_ℝ = v ⬝ᵥ w := by
  simp [PiLp.inner_apply, dotProduct, mul_comm]

theorem svd_exists_tall (h : N ≤ M) (X : Matrix (Fin M) (Fin N) ℝ) :
    ∃ (U : Matrix (Fin M) (Fin N) ℝ) (s : Fin N → ℝ) (Vt : Matrix (Fin N) (Fin N) ℝ), IsSvd X U s Vt := by
  have hS : (Xᵀ * X).IsHermitian := by
    have := isHermitian_conjTranspose_mul_self X
    rwa [conjTranspose_eq_transpose_of_trivial] at this
  set lam := hS.eigenvalues with hlam
  set v : Fin N → Fin N → ℝ := fun i => WithLp.ofLp (hS.eigenvectorBasis i) with hv
  have hvv : ∀ i j, v i ⬝ᵥ v j = if i = j then 1 else 0 := by
    intro i j
    have := orthonormal_iff_ite.mp hS.eigenvectorBasis.orthonormal i j
    rw [← this, ← inner_toE]
  have heig : ∀ i, (Xᵀ * X) *ᵥ v i = lam i • v i := fun i => hS.mulVec_eigenvectorBasis i
  have hXX : ∀ i j, (X *ᵥ v i) ⬝ᵥ (X *ᵥ v j) = if i = j then lam i else 0 := by
    intro i j
    have : (X *ᵥ v i) ⬝ᵥ (X *ᵥ v j) = v i ⬝ᵥ ((Xᵀ * X) *ᵥ v j) := by
      rw [← mulVec_mulVec, dotProduct_mulVec (v i) Xᵀ, vecMul_transpose]
    rw [this, heig, dotProduct_smul, hvv, smul_eq_mul]
    split_ifs with e
    · rw [e, mul_one]
    · rw [mul_zero]
  have hl0 : ∀ i, 0 ≤ lam i := by
    intro i
    have := hXX i i
    rw [if_pos rfl] at this
    rw [← this]
    exact Finset.sum_nonneg fun j _ => mul_self_nonneg _
  set s : Fin N → ℝ := fun i => Real.sqrt (lam i) with hs
  have hss : ∀ i, s i * s i = lam i := fun i => Real.mul_self_sqrt (hl0 i)
  -- the left vectors
  set w : Fin M → EuclideanSpace ℝ (Fin M) := fun i => if hi : i.val < N then toE ((s ⟨i, hi⟩)⁻¹ • X *ᵥ v ⟨i, hi⟩) else 0 with hw
  let T : Set (Fin M) := {i | ∃ hi : i.val < N, s ⟨i, hi⟩ ≠ 0}
  have hort : Orthonormal ℝ (T.domRestrict w) := by
    rw [orthonormal_iff_ite]
    rintro ⟨i, hi, hsi⟩ ⟨j, hj, hsj⟩
    show ⟪w i, w j⟫_ℝ = _
    simp only [hw, dif_pos hi, dif_pos hj, inner_toE]
    rw [smul_dotProduct, dotProduct_smul, hXX, smul_eq_mul, smul_eq_mul]
    by_cases e : i = j
    · subst e
      rw [if_pos rfl, if_pos rfl, ← hss]
      field_simp
    · rw [if_neg (fun h => e (by simpa [Fin.ext_iff] using h)), if_neg (fun h => e (by simpa using h))]
      simp
  obtain ⟨b, hb⟩ := hort.exists_orthonormalBasis_extension_of_card_eq (by simp)
  set U : Matrix (Fin M) (Fin N) ℝ := fun a i => WithLp.ofLp (b (Fin.castLE h i)) a with hU
  have hUU : ∀ i j : Fin N, (fun a => U a i) ⬝ᵥ (fun a => U a j) = if i = j then 1 else 0 := by
    intro i j
    have := orthonormal_iff_ite.mp b.orthonormal (Fin.castLE h i) (Fin.castLE h j)
    simp only [show (Fin.castLE h i = Fin.castLE h j) ↔ i = j by simp [Fin.ext_iff]] at this
    rw [← this, ← inner_toE]
  have hcol : ∀ i a, U a i * s i = (X *ᵥ v i) a := by
    intro i a
    by_cases h0 : s i = 0
    · have h1 := hXX i i
      rw [if_pos rfl, ← hss, h0, mul_zero] at h1
      have h2 := (Finset.sum_eq_zero_iff_of_nonneg (fun j _ => mul_self_nonneg ((X *ᵥ v i) j))).mp h1 a (Finset.mem_univ a)
      rw [h0, mul_zero, mul_self_eq_zero.mp h2]
    · have h1 := hb (Fin.castLE h i) ⟨i.2, h0⟩
      show WithLp.ofLp (b (Fin.castLE h i)) a * s i = _
      rw [h1]
      simp only [hw, Fin.val_castLE, Fin.is_lt, dif_pos]
      show (s i)⁻¹ * (X *ᵥ v i) a * s i = _
      field_simp
  set V : Matrix (Fin N) (Fin N) ℝ := fun i j => v i j with hV
  have hVV : V * Vᵀ = 1 := by
    ext i j
    rw [mul_apply, one_apply]
    exact hvv i j
  refine ⟨U, s, V, ?_, hVV, fun i => Real.sqrt_nonneg _, ?_⟩
  · ext i j
    rw [mul_apply, one_apply]
    exact hUU i j
  · have hVV' : Vᵀ * V = 1 := mul_eq_one_comm.mp hVV
    have : U * diagonal s = X * Vᵀ := by
      ext a i
      rw [mul_diagonal, hcol]
      rfl
    rw [this, Matrix.mul_assoc, hVV', Matrix.mul_one]

/-- Every matrix has a thin singular value decomposition: a `svd` as assumed in the theorems exists for every shape. -/
theorem svd_exists (X : Matrix (Fin M) (Fin N) ℝ) :
    ∃ (U : Matrix (Fin M) (Fin (min M N)) ℝ) (s : Fin (min M N) → ℝ) (Vt : Matrix (Fin (min M N)) (Fin N) ℝ), IsSvd X U s Vt := by
  rcases le_total N M with h | h
  · rw [min_eq_right h]
    exact svd_exists_tall h X
  · rw [min_eq_left h]
    obtain ⟨U, s, V, hsvd⟩ := svd_exists_tall h Xᵀ
    have := isSvd_transpose hsvd
    rw [transpose_transpose] at this
    exact ⟨_, _, _, this⟩
end Copt
