import Mathlib.Analysis.InnerProductSpace.Basic
import Mathlib.Analysis.InnerProductSpace.PiL2
import Mathlib.Algebra.BigOperators.Intervals

/-! # One pass over the samples in an arbitrary order: how far the iterate can drift -/

set_option linter.unusedSectionVars false

namespace Copt

variable {E : Type*} [NormedAddCommGroup E] [InnerProductSpace ℝ E]

/-- A pass of `n` steps along directions `d k` that stay within `m + Λ A` of `q k` as long as the pass stays within `A` of its start. -/
theorem walk_drift {n : ℕ} {g B0 m Lam : ℝ} (u d q : ℕ → E) (hg : 0 ≤ g) (hB0 : 0 ≤ B0) (hm : 0 ≤ m) (hL : 0 ≤ Lam)
    (hstep : ∀ k < n, u (k + 1) = u k - g • d k) (hq : ∀ k < n, ‖q k‖ ≤ B0)
    (hd : ∀ k < n, ∀ A, (∀ j ≤ k, ‖u j - u 0‖ ≤ A) → ‖d k - q k‖ ≤ m + Lam * A) (hsmall : 2 * n * g * Lam ≤ 1) :
    (∀ k ≤ n, ‖u k - u 0‖ ≤ 2 * k * g * (B0 + m)) ∧
      ‖u n - u 0 + g • ∑ k ∈ Finset.range n, q k‖ ≤ n * g * (m + Lam * (2 * n * g * (B0 + m))) := by
  have hB : 0 ≤ B0 + m := add_nonneg hB0 hm
  have h1 : ∀ k ≤ n, ∀ j ≤ k, ‖u j - u 0‖ ≤ 2 * k * g * (B0 + m) := by
    intro k
    induction k with
    | zero => intro _ j hj; obtain rfl := Nat.le_zero.mp hj; simp
    | succ k ih =>
      intro hk j hj
      have ihk := ih (by omega)
      have hmono : 2 * (k : ℝ) * g * (B0 + m) ≤ 2 * ((k + 1 : ℕ) : ℝ) * g * (B0 + m) := by
        push_cast
        have : 0 ≤ g * (B0 + m) := mul_nonneg hg hB
        nlinarith
      rcases Nat.lt_or_eq_of_le hj with h | rfl
      · exact (ihk j (by omega)).trans hmono
      · have hdk := hd k (by omega) _ ihk
        have hqk := hq k (by omega)
        have hdn : ‖d k‖ ≤ B0 + (m + Lam * (2 * k * g * (B0 + m))) := by
          calc ‖d k‖ = ‖q k + (d k - q k)‖ := by congr 1; abel
            _ ≤ ‖q k‖ + ‖d k - q k‖ := norm_add_le _ _
            _ ≤ _ := add_le_add hqk hdk
        have hkn : (k : ℝ) ≤ n := by exact_mod_cast (by omega : k ≤ n)
        have hLk : Lam * (2 * k * g * (B0 + m)) ≤ B0 + m := by
          have e1 : 2 * k * g * Lam ≤ 2 * n * g * Lam := by
            have : 0 ≤ g * Lam := mul_nonneg hg hL
            nlinarith
          have := mul_le_mul_of_nonneg_right (e1.trans hsmall) hB
          nlinarith
        calc ‖u (k + 1) - u 0‖ = ‖(u k - u 0) - g • d k‖ := by rw [hstep k (by omega)]; congr 1; abel
          _ ≤ ‖u k - u 0‖ + ‖g • d k‖ := norm_sub_le _ _
          _ ≤ 2 * k * g * (B0 + m) + g * (2 * (B0 + m)) := by
            rw [norm_smul, Real.norm_of_nonneg hg]
            exact add_le_add (ihk k le_rfl) (mul_le_mul_of_nonneg_left (by linarith) hg)
          _ = _ := by push_cast; ring
  refine ⟨fun k hk => h1 k hk k le_rfl, ?_⟩
  have hsum : ∀ k ≤ n, u k - u 0 + g • ∑ j ∈ Finset.range k, q j = -(g • ∑ j ∈ Finset.range k, (d j - q j)) := by
    intro k
    induction k with
    | zero => intro _; simp
    | succ k ih =>
      intro hk
      have := ih (by omega)
      rw [Finset.sum_range_succ, Finset.sum_range_succ, hstep k (by omega), smul_add, smul_add, neg_add, ← this, smul_sub]
      abel
  rw [hsum n le_rfl, norm_neg, norm_smul, Real.norm_of_nonneg hg]
  have h2 : ‖∑ j ∈ Finset.range n, (d j - q j)‖ ≤ n * (m + Lam * (2 * n * g * (B0 + m))) := by
    refine (norm_sum_le _ _).trans ?_
    calc ∑ j ∈ Finset.range n, ‖d j - q j‖ ≤ ∑ j ∈ Finset.range n, (m + Lam * (2 * n * g * (B0 + m))) := by
          refine Finset.sum_le_sum fun j hj => ?_
          have hj' := Finset.mem_range.mp hj
          exact hd j hj' _ fun i hi => h1 n le_rfl i (by omega)
      _ = _ := by simp; ring
  calc g * ‖∑ j ∈ Finset.range n, (d j - q j)‖ ≤ g * (n * (m + Lam * (2 * n * g * (B0 + m)))) := mul_le_mul_of_nonneg_left h2 hg
    _ = _ := by ring

/-- A gradient step contracts. -/
theorem grad_contract {e G : E} {g mu L : ℝ} (hg : 0 ≤ g) (hmu : mu * ‖e‖ ^ 2 ≤ inner ℝ G e) (hL : ‖G‖ ^ 2 ≤ L * inner ℝ G e) (hgL : g * L ≤ 1)
    (hin : 0 ≤ inner ℝ G e) (hgm : g * mu ≤ 2) : ‖e - g • G‖ ≤ (1 - g * mu / 2) * ‖e‖ := by
  have h1 : ‖e - g • G‖ ^ 2 = ‖e‖ ^ 2 - 2 * (g * inner ℝ G e) + g ^ 2 * ‖G‖ ^ 2 := by
    rw [norm_sub_sq_real, inner_smul_right, norm_smul, Real.norm_eq_abs, mul_pow, sq_abs, real_inner_comm]
  have h2 : g ^ 2 * ‖G‖ ^ 2 ≤ g * inner ℝ G e := by
    have := mul_le_mul_of_nonneg_left hL (sq_nonneg g)
    have := mul_le_mul_of_nonneg_right hgL (mul_nonneg hg hin)
    nlinarith
  have h3 := mul_le_mul_of_nonneg_left hmu hg
  have h4 : ‖e - g • G‖ ^ 2 ≤ ((1 - g * mu / 2) * ‖e‖) ^ 2 := by
    rw [h1]
    nlinarith [sq_nonneg (g * mu / 2 * ‖e‖)]
  exact (abs_le_of_sq_le_sq' h4 (mul_nonneg (by linarith) (norm_nonneg e))).2

/-- The vector of coordinates as a point of Euclidean space. -/
abbrev euc {p : ℕ} (v : Fin p → ℝ) : EuclideanSpace ℝ (Fin p) := WithLp.toLp 2 v

theorem norm_euc_sq {p : ℕ} (v : Fin p → ℝ) : ‖euc v‖ ^ 2 = ∑ c, v c ^ 2 := by
  rw [EuclideanSpace.real_norm_sq_eq]

theorem inner_euc {p : ℕ} (x y : Fin p → ℝ) : inner ℝ (euc x) (euc y) = ∑ c, x c * y c := by
  simp [PiLp.inner_apply, mul_comm]

theorem norm_euc {p : ℕ} (v : Fin p → ℝ) : ‖euc v‖ = √(∑ c, v c ^ 2) := by
  rw [← norm_euc_sq, Real.sqrt_sq (norm_nonneg _)]

/-- Multiplying the coordinates by numbers of absolute value at most `D`. -/
theorem norm_scale_le {p : ℕ} (w v : Fin p → ℝ) {D : ℝ} (hw : ∀ c, |w c| ≤ D) (hD : 0 ≤ D) : ‖euc fun c => w c * v c‖ ≤ D * ‖euc v‖ := by
  refine (abs_le_of_sq_le_sq' ?_ (mul_nonneg hD (norm_nonneg _))).2
  rw [mul_pow, norm_euc_sq, norm_euc_sq, Finset.mul_sum]
  refine Finset.sum_le_sum fun c _ => ?_
  rw [mul_pow]
  exact mul_le_mul_of_nonneg_right (sq_le_sq' (by linarith [neg_abs_le (w c), hw c]) ((le_abs_self _).trans (hw c))) (sq_nonneg _)

/-- The states met by a fold that succeeds. -/
theorem foldlM_trace {σ α : Type} (f : σ → α → Option σ) : ∀ (idx : List α) (st r : σ), idx.foldlM f st = some r →
    ∃ sts : ℕ → σ, sts 0 = st ∧ sts idx.length = r ∧ ∀ k (hk : k < idx.length), f (sts k) idx[k] = some (sts (k + 1))
  | [], st, r, h => ⟨fun _ => st, rfl, Option.some.inj h, fun k hk => absurd hk (by simp)⟩
  | a :: idx, st, r, h => by
    rw [List.foldlM_cons] at h
    obtain ⟨s, hs, h2⟩ := Option.bind_eq_some_iff.mp h
    obtain ⟨sts, h0, hl, hk⟩ := foldlM_trace f idx s r h2
    refine ⟨fun k => match k with
      | 0 => st
      | k + 1 => sts k, rfl, hl, fun k hlt => ?_⟩
    cases k with
    | zero => simpa [h0] using hs
    | succ k => exact hk k (by simpa using hlt)

theorem sum_getD {M : Type} [AddCommMonoid M] (Q : ℕ → M) : ∀ idx : List ℕ, ∑ k ∈ Finset.range idx.length, Q (idx.getD k 0) = (idx.map Q).sum
  | [] => by simp
  | a :: idx => by
    rw [List.length_cons, Finset.sum_range_succ', List.map_cons, List.sum_cons, ← sum_getD Q idx, add_comm]
    simp

theorem sum_univ_list {M : Type} [AddCommMonoid M] (Q : ℕ → M) (n : ℕ) : ∑ i : Fin n, Q i = ((List.range n).map Q).sum := by
  rw [Fin.sum_univ_eq_sum_range]
  induction n with
  | zero => simp
  | succ n ih => rw [Finset.sum_range_succ, ih, List.range_succ]; simp

/-- A sum over the samples in the order `idx`. -/
theorem sum_perm {M : Type} [AddCommMonoid M] {n : ℕ} (Q : ℕ → M) {idx : List ℕ} (h : idx.Perm (List.range n)) :
    ∑ k ∈ Finset.range n, Q (idx.getD k 0) = ∑ i : Fin n, Q i := by
  have hl : idx.length = n := by simpa using h.length_eq
  have h1 := sum_getD Q idx
  rw [hl] at h1
  rw [h1, (h.map Q).sum_eq, sum_univ_list]

end Copt
