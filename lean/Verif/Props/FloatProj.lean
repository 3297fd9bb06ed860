import Verif.Proof.FloatSimplex
import Verif.Props.Constraint
import Mathlib.Tactic.FinCases
import Mathlib.Tactic.IntervalCases
import Mathlib.Data.Fintype.Lattice

/-!
# Properties C115 and C116: the projections of `copt/constraint.py` with rounded arithmetic
-/

set_option linter.unusedSectionVars false

namespace Copt

open Spec

variable {rd : ℝ → ℝ} {u eta : ℝ} {n : ℕ}

/-- **C115 (partial).** With rounded arithmetic of unit roundoff `u` and underflow threshold `eta`, `euclidean_proj_simplex` does not raise, returns a vector without negative entry, and
this vector is within `24 n (u (‖v‖₁ + s) + eta)` of the exact projection, for the l1 norm.  The bound holds for every order of summation in `v.sum()`.
Missing: large arguments (the hypothesis `hbig`), for which the code raises, see `C115_index_error`. -/
theorem C115_simplex_rounded_partial (hr : Rounding rd u eta) (hn : 16 * n * u ≤ 1) (v : Fin n → ℝ) (hv : ∀ i, rd (v i) = v i) {s sum : ℝ} (hs : 0 < s)
    (hsum : FlSum rd (List.ofFn v) sum) (hbig : ∃ i, (∀ j, v j ≤ v i) ∧ u * (|v i| + s) + eta < s) :
    ∃ w P, SimplexConstraint.flProx rd sum s v = .ok w ∧ (∀ i, 0 ≤ w i) ∧ IsProj (simplex s) v P ∧
      ∑ i, |w i - P i| ≤ 24 * n * (u * (norm1 v + s) + eta) ∧ |∑ i, w i - s| ≤ 24 * n * (u * (norm1 v + s) + eta) := by
  obtain ⟨i0, hi0, hb⟩ := hbig
  have hn0 : 0 < n := lt_of_le_of_lt (Nat.zero_le _) i0.2
  obtain ⟨w, hw, hw0, -, herr⟩ := flProjSimplex_spec hr hn v hv hs hsum hi0 hb
  obtain ⟨P, hP, hproj⟩ := C03_proj_simplex_correct hn0 v s hs
  obtain ⟨t, hP', ht⟩ := projSimplex_spec hn0 v hs
  rw [hP] at hP'
  obtain rfl := Except.ok.inj hP'
  have := herr t ht
  refine ⟨w, _, hw, hw0, hproj, this, ?_⟩
  refine le_trans ?_ this
  rw [← ht, ← Finset.sum_sub_distrib]
  exact Finset.abs_sum_le_sum_abs _ _

/-- **C116 (partial).** With rounded arithmetic, `L1Ball(s).prox` does not raise and returns a vector within `26 n (u (‖v‖₁ + s) + eta)` of the exact projection, for the l1 norm.
Missing: large arguments, as for C115, see `C116_index_error`. -/
theorem C116_l1_ball_rounded_partial (hr : Rounding rd u eta) (hn : 16 * n * u ≤ 1) (v : Fin n → ℝ) (hv : ∀ i, rd (v i) = v i) {s sum : ℝ} (hs : 0 < s)
    (hsum : FlSum rd (List.ofFn fun i => |v i|) sum) (hbig : ∀ i, u * (|v i| + s) + eta < s) :
    ∃ w P, L1Ball.flProx rd sum s v = .ok w ∧ IsProj (l1Ball s) v P ∧ ∑ i, |w i - P i| ≤ 26 * n * (u * (norm1 v + s) + eta) ∧
      norm1 w ≤ s + 26 * n * (u * (norm1 v + s) + eta) := by
  have hu := hr.u_nonneg
  have he := hr.eta_nonneg
  have hn0 : 0 < n := by have := hsum.pos; rwa [List.length_ofFn] at this
  have hn1 : (1 : ℝ) ≤ n := by exact_mod_cast hn0
  haveI : Nonempty (Fin n) := ⟨⟨0, hn0⟩⟩
  obtain ⟨i0, hi0⟩ := Finite.exists_max (fun i => |v i|)
  have hS : 0 ≤ ∑ i, |v i| := Finset.sum_nonneg fun _ _ => abs_nonneg _
  obtain ⟨eps, heps⟩ : ∃ eps, eps = u * (norm1 v + s) + eta := ⟨_, rfl⟩
  have hnorm : norm1 v = ∑ i, |v i| := rfl
  have heps0 : 0 ≤ eps := by rw [heps, hnorm]; have := mul_nonneg hu (add_nonneg hS hs.le); linarith
  have hva : ∀ i, rd |v i| = |v i| := by
    intro i
    rcases abs_choice (v i) with h | h <;> rw [h]
    · exact hv i
    · rw [hr.neg, hv]
  obtain ⟨w, hw, hw0, hwr, herr⟩ := flProjSimplex_spec hr hn (fun i => |v i|) hva hs hsum hi0 (by rw [abs_abs]; exact hbig i0)
  simp only [abs_abs] at herr
  rw [← hnorm, ← heps] at herr
  obtain ⟨P, hP, hproj⟩ := C04_l1_prox_is_projection v s hs
  have esum : |sum - (∑ i, |v i|)| ≤ 2 * n * eps := by
    have e2 := hsum.error hr (by rw [List.length_ofFn]; nlinarith)
    rw [List.sum_ofFn, List.map_ofFn, List.sum_ofFn, List.length_ofFn] at e2
    refine e2.trans ?_
    have e3 : u * (∑ i, (abs ∘ fun i => |v i|) i) + eta ≤ eps := by
      rw [heps, hnorm, mul_add]; have := mul_nonneg hu hs.le
      simp only [Function.comp, abs_abs]; linarith
    have e4 := mul_le_mul_of_nonneg_left e3 (show 0 ≤ 2 * ((n : ℝ) - 1) by linarith)
    linarith
  have esum' := abs_le.mp esum
  have hmain : ∃ w', L1Ball.flProx rd sum s v = .ok w' ∧ ∑ i, |w' i - P i| ≤ 26 * n * eps := by
    obtain ⟨t, hok, ht⟩ := projSimplex_spec hn0 (fun i => |v i|) hs
    have hne : 0 ≤ (n : ℝ) * eps := by positivity
    unfold L1Ball.prox projL1Ball at hP
    rw [if_neg (by simpa using hs)] at hP
    dsimp only at hP
    -- distance from `|v|` to the simplex
    have hdist : ∑ i, |(|v i|) - max (|v i| - t) 0| = |(∑ i, |v i|) - s| := by
      have h0 : ∀ i, |v i| = max (|v i| - 0) 0 := fun i => by rw [sub_zero, max_eq_left (abs_nonneg _)]
      calc ∑ i, |(|v i|) - max (|v i| - t) 0| = ∑ i, |max (|v i| - 0) 0 - max (|v i| - t) 0| := Finset.sum_congr rfl fun i _ => by rw [← h0 i]
        _ = |∑ i, max (|v i| - 0) 0 - ∑ i, max (|v i| - t) 0| := threshold_l1 _ t 0
        _ = _ := by rw [ht, ← Finset.sum_congr rfl fun i _ => h0 i]
    have hsgn : ∀ x y z : ℝ, |x * npSign z - y * npSign z| ≤ |x - y| := by
      intro x y z
      rw [← sub_mul, abs_mul]
      exact mul_le_of_le_one_right (abs_nonneg _) (abs_npSign_le z)
    have hself : ∀ i, v i = |v i| * npSign (v i) := fun i => by rw [mul_comm, npSign_mul_abs]
    unfold L1Ball.flProx flProjL1Ball
    rw [if_neg (by simpa using hs)]
    dsimp only
    split_ifs with hle
    · refine ⟨v, rfl, ?_⟩
      split_ifs at hP with hin
      · obtain rfl := Except.ok.inj hP
        simp only [sub_self, abs_zero, Finset.sum_const_zero]; linarith
      · rw [hok] at hP
        obtain rfl := Except.ok.inj hP
        push Not at hin
        calc ∑ i, |v i - max (|v i| - t) 0 * npSign (v i)| ≤ ∑ i, |(|v i|) - max (|v i| - t) 0| := by
              refine Finset.sum_le_sum fun i _ => ?_
              conv_lhs => rw [hself i]
              have hz := hsgn |v i| (max (|v i| - t) 0) (v i)
              rw [← hself i]
              rw [← hself i] at hz
              exact hz
          _ = |(∑ i, |v i|) - s| := hdist
          _ = ∑ i, |v i| - s := abs_of_pos (by linarith)
          _ ≤ _ := by linarith [esum'.1]
    · push Not at hle
      rw [hw]
      refine ⟨fun i => rd (w i * npSign (v i)), rfl, ?_⟩
      have hexact : ∀ i, rd (w i * npSign (v i)) = w i * npSign (v i) := by
        intro i
        unfold npSign
        split_ifs
        · rw [mul_one, hwr]
        · rw [mul_neg, mul_one, hr.neg, hwr]
        · rw [mul_zero, hr.zero]
      simp only [hexact]
      have h1 := herr t ht
      split_ifs at hP with hin
      · obtain rfl := Except.ok.inj hP
        calc ∑ i, |w i * npSign (v i) - v i| ≤ ∑ i, (|w i - max (|v i| - t) 0| + |(|v i|) - max (|v i| - t) 0|) := by
              refine Finset.sum_le_sum fun i _ => ?_
              have h2 := hsgn (w i) |v i| (v i)
              rw [← hself i] at h2
              have h3 := abs_sub_le (w i) (max (|v i| - t) 0) |v i|
              rw [abs_sub_comm (max (|v i| - t) 0)] at h3
              exact h2.trans h3
          _ = ∑ i, |w i - max (|v i| - t) 0| + |(∑ i, |v i|) - s| := by rw [Finset.sum_add_distrib, hdist]
          _ = ∑ i, |w i - max (|v i| - t) 0| + (s - ∑ i, |v i|) := by rw [abs_of_nonpos (by linarith), neg_sub]
          _ ≤ _ := by linarith [esum'.2]
      · rw [hok] at hP
        obtain rfl := Except.ok.inj hP
        calc ∑ i, |w i * npSign (v i) - max (|v i| - t) 0 * npSign (v i)| ≤ ∑ i, |w i - max (|v i| - t) 0| :=
              Finset.sum_le_sum fun i _ => hsgn _ _ _
          _ ≤ _ := by linarith
  obtain ⟨w', hw', hd⟩ := hmain
  rw [← heps]
  refine ⟨w', P, hw', hproj, hd, ?_⟩
  have hPs : norm1 P ≤ s := hproj.1
  have : norm1 w' ≤ norm1 P + ∑ i, |w' i - P i| := by
    unfold norm1
    rw [← Finset.sum_add_distrib]
    refine Finset.sum_le_sum fun i _ => ?_
    have : w' i = P i + (w' i - P i) := by ring
    calc |w' i| = |P i + (w' i - P i)| := by rw [← this]
      _ ≤ _ := abs_add_le _ _
  linarith

/-! ### Large arguments -/

theorem fl64_pow60_sub {s : ℝ} (h0 : 0 < s) (h1 : s < 64) : fl64 (2 ^ 60 - s) = 2 ^ 60 := by
  have hpos : (0 : ℝ) ≤ 2 ^ 60 - s := by norm_num; linarith
  have hulp : ulp64 (2 ^ 60 - s) = 128 := ulp64_eq (k := 7) (by norm_num) (by norm_num; linarith) (by norm_num; linarith)
  unfold fl64
  rw [if_pos hpos, hulp]
  have : round ((2 ^ 60 - s) / 128) = (2 : ℤ) ^ 53 := by
    rw [round_eq, Int.floor_eq_iff]
    constructor
    · push_cast; linarith
    · push_cast; linarith
  rw [this]; norm_num

theorem fl64_pow60 : fl64 (2 ^ 60) = 2 ^ 60 := by
  have hulp : ulp64 (2 ^ 60) = 256 := ulp64_eq (k := 8) (by norm_num) (by norm_num) (by norm_num)
  exact fl64_int (m := 2 ^ 52) (by norm_num) (by rw [hulp]; norm_num)

/-- The vector `(2^60, 0, …, 0)`. -/
def bigFirst (n : ℕ) : Fin (n + 1) → ℝ := fun i => if i = 0 then 2 ^ 60 else 0

theorem sortDesc_bigFirst (n : ℕ) (k : ℕ) : (sortDesc (bigFirst n)).getD k 0 = if k = 0 then 2 ^ 60 else 0 := by
  have hmax : ∀ j, bigFirst n j ≤ bigFirst n 0 := by intro j; unfold bigFirst; rw [if_pos rfl]; split_ifs <;> norm_num
  have h0 := sortDesc_head (bigFirst n) 0 hmax
  split_ifs with hk
  · subst hk; rw [h0]; simp [bigFirst]
  · by_cases hkn : k < n + 1
    · -- the entries after the first one sum to zero and are not negative
      have hsum := sortDesc_range_sum (bigFirst n) id
      rw [Finset.sum_range_succ'] at hsum
      simp only [id] at hsum
      rw [h0] at hsum
      have hs2 : ∑ i, bigFirst n i = bigFirst n 0 := by
        rw [Fin.sum_univ_succ]; simp [bigFirst, Fin.succ_ne_zero]
      rw [hs2] at hsum
      have hz : ∑ j ∈ Finset.range n, (sortDesc (bigFirst n)).getD (j + 1) 0 = 0 := by linarith
      have hnn : ∀ j ∈ Finset.range n, 0 ≤ (sortDesc (bigFirst n)).getD (j + 1) 0 := by
        intro j hj
        obtain ⟨i, hi⟩ := sortDesc_getD_mem (bigFirst n) (j := j + 1) (by have := Finset.mem_range.mp hj; omega)
        rw [hi]; unfold bigFirst; split_ifs <;> norm_num
      obtain ⟨m, rfl⟩ : ∃ m, k = m + 1 := ⟨k - 1, by omega⟩
      exact (Finset.sum_eq_zero_iff_of_nonneg hnn).mp hz m (Finset.mem_range.mpr (by omega))
    · rw [List.getD_eq_default _ _ (by rw [sortDesc_length]; omega)]

/-- `v.sum()` is exact on this vector. -/
theorem flSum_bigFirst (n : ℕ) : FlSum fl64 (List.ofFn (bigFirst n)) (2 ^ 60) := by
  have hrep : ∀ m, FlSum fl64 ((2 ^ 60 : ℝ) :: List.replicate m 0) (2 ^ 60) := by
    intro m
    induction m with
    | zero => exact FlSum.single _
    | succ m ih =>
      have := ih.add (FlSum.single (rd := fl64) 0)
      rw [add_zero, fl64_pow60] at this
      rwa [List.replicate_succ']
  have : List.ofFn (bigFirst n) = (2 ^ 60 : ℝ) :: List.replicate n 0 := by
    rw [List.ofFn_succ]
    congr 1
    have : (fun i : Fin n => bigFirst n i.succ) = fun _ => 0 := by funext i; simp [bigFirst, Fin.succ_ne_zero]
    rw [this, List.ofFn_const]
  rw [this]; exact hrep n

/-- **C115 (counterexample).** In double precision `euclidean_proj_simplex` raises `IndexError` on the vector `(2^60, 0, …, 0)`, in every dimension and for every radius below 64. -/
theorem C115_index_error (n : ℕ) {s : ℝ} (h0 : 0 < s) (h1 : s < 64) :
    FlSum fl64 (List.ofFn (bigFirst n)) (2 ^ 60) ∧ (∀ i, fl64 (bigFirst n i) = bigFirst n i) ∧
      SimplexConstraint.flProx fl64 (2 ^ 60) s (bigFirst n) = .error .indexError := by
  refine ⟨flSum_bigFirst n, fun i => ?_, ?_⟩
  · unfold bigFirst; split_ifs
    · exact fl64_pow60
    · exact fl64_zero
  unfold SimplexConstraint.flProx flProjSimplex
  rw [if_neg (by simpa using h0), if_neg (by rintro ⟨h, -⟩; rw [← h] at h1; norm_num at h1)]
  have hcum : ∀ k, flCumsum fl64 (fun j => (sortDesc (bigFirst n)).getD j 0) k = 2 ^ 60 := by
    intro k
    induction k with
    | zero => simp only [flCumsum]; rw [sortDesc_bigFirst, if_pos rfl]
    | succ k ih => simp only [flCumsum]; rw [ih, sortDesc_bigFirst, if_neg (by omega), add_zero, fl64_pow60]
  have hempty : flCandidates fl64 (sortDesc (bigFirst n)) s = [] := by
    rw [List.eq_nil_iff_forall_not_mem]
    intro k hk
    rw [flCandidates_mem, hcum, fl64_pow60_sub h0 h1, sortDesc_bigFirst] at hk
    obtain ⟨-, hk⟩ := hk
    split_ifs at hk with hk0
    · subst hk0
      rw [Nat.cast_zero, zero_add, mul_one, fl64_pow60] at hk
      exact lt_irrefl _ hk
    · rw [zero_mul, fl64_zero] at hk
      norm_num at hk
  dsimp only
  rw [hempty]
  rfl

/-- **C116 (counterexample).** In double precision `L1Ball(s).prox` raises `IndexError` on the same vectors. -/
theorem C116_index_error (n : ℕ) {s : ℝ} (h0 : 0 < s) (h1 : s < 64) :
    FlSum fl64 (List.ofFn fun i => |bigFirst n i|) (2 ^ 60) ∧ (∀ i, fl64 (bigFirst n i) = bigFirst n i) ∧
      L1Ball.flProx fl64 (2 ^ 60) s (bigFirst n) = .error .indexError := by
  have habs : (fun i => |bigFirst n i|) = bigFirst n := by
    funext i; apply abs_of_nonneg; unfold bigFirst; split_ifs <;> norm_num
  obtain ⟨h2, h3, h4⟩ := C115_index_error n h0 h1
  refine ⟨by rw [habs]; exact h2, h3, ?_⟩
  unfold L1Ball.flProx flProjL1Ball
  rw [if_neg (by simpa using h0)]
  dsimp only
  rw [habs, if_neg (by push Not; linarith [show (64 : ℝ) ≤ 2 ^ 60 by norm_num])]
  unfold SimplexConstraint.flProx at h4
  rw [h4]
  rfl

/-! ### Examples -/

/-- Double precision, dimension at most `2^49`: the hypothesis on `n` holds. -/
theorem dim_ok {n : ℕ} (h : n ≤ 2 ^ 49) : 16 * (n : ℝ) * 2⁻¹ ^ 53 ≤ 1 := by
  have : (n : ℝ) ≤ 2 ^ 49 := by exact_mod_cast h
  calc 16 * (n : ℝ) * 2⁻¹ ^ 53 ≤ 16 * 2 ^ 49 * 2⁻¹ ^ 53 := by gcongr
    _ = 1 := by norm_num

theorem fl64_small {m : ℕ} (h0 : 0 < m) (h1 : m < 4) : fl64 m = m := by
  interval_cases m
  · exact fl64_int (m := 2 ^ 52) (by norm_num) (by rw [ulp64_eq (q := 2⁻¹ ^ 52) (k := -52) (by norm_num) (by norm_num) (by norm_num)]; norm_num)
  · exact fl64_int (m := 2 ^ 52) (by norm_num) (by rw [ulp64_eq (q := 2⁻¹ ^ 51) (k := -51) (by norm_num) (by norm_num) (by norm_num)]; norm_num)
  · exact fl64_int (m := 3 * 2 ^ 51) (by norm_num) (by rw [ulp64_eq (q := 2⁻¹ ^ 51) (k := -51) (by norm_num) (by norm_num) (by norm_num)]; norm_num)

/-- Double precision with the underflow threshold of IEEE arithmetic, `v = (1, -2)`, radius one. -/
example : ∃ w P, SimplexConstraint.flProx fl64 (fl64 (1 + -2)) 1 ![1, -2] = .ok w ∧ (∀ i, 0 ≤ w i) ∧ IsProj (simplex 1) ![1, -2] P ∧
    ∑ i, |w i - P i| ≤ 24 * (2 : ℕ) * (2⁻¹ ^ 53 * (norm1 ![1, -2] + 1) + 2⁻¹ ^ 1075) ∧
    |∑ i, w i - 1| ≤ 24 * (2 : ℕ) * (2⁻¹ ^ 53 * (norm1 ![1, -2] + 1) + 2⁻¹ ^ 1075) := by
  have hsmall : (2⁻¹ : ℝ) ^ 1075 ≤ 2⁻¹ ^ 3 := pow_le_pow_of_le_one (by norm_num) (by norm_num) (by norm_num)
  refine C115_simplex_rounded_partial (fl64_rounding (by positivity)) (dim_ok (by norm_num)) _ ?_ one_pos ?_ ⟨0, ?_, ?_⟩
  · have h1 : fl64 1 = 1 := by exact_mod_cast fl64_small (m := 1) (by norm_num) (by norm_num)
    have h2 : fl64 2 = 2 := by exact_mod_cast fl64_small (m := 2) (by norm_num) (by norm_num)
    intro i; fin_cases i
    · exact h1
    · show fl64 (-2) = -2
      rw [fl64_neg, h2]
  · exact FlSum.add (FlSum.single _) (FlSum.single _)
  · intro j; fin_cases j <;> norm_num
  · simp only [Matrix.cons_val_zero, abs_one]
    generalize (2⁻¹ : ℝ) ^ 1075 = e at hsmall ⊢; norm_num at hsmall ⊢
    linarith

/-- The same vector and the l1 ball. -/
example : ∃ w P, L1Ball.flProx fl64 (fl64 (1 + 2)) 1 ![1, -2] = .ok w ∧ IsProj (l1Ball 1) ![1, -2] P ∧
    ∑ i, |w i - P i| ≤ 26 * (2 : ℕ) * (2⁻¹ ^ 53 * (norm1 ![1, -2] + 1) + 2⁻¹ ^ 1075) ∧
    norm1 w ≤ 1 + 26 * (2 : ℕ) * (2⁻¹ ^ 53 * (norm1 ![1, -2] + 1) + 2⁻¹ ^ 1075) := by
  have hsmall : (2⁻¹ : ℝ) ^ 1075 ≤ 2⁻¹ ^ 3 := pow_le_pow_of_le_one (by norm_num) (by norm_num) (by norm_num)
  refine C116_l1_ball_rounded_partial (fl64_rounding (by positivity)) (dim_ok (by norm_num)) _ ?_ one_pos ?_ ?_
  · have h1 : fl64 1 = 1 := by exact_mod_cast fl64_small (m := 1) (by norm_num) (by norm_num)
    have h2 : fl64 2 = 2 := by exact_mod_cast fl64_small (m := 2) (by norm_num) (by norm_num)
    intro i; fin_cases i
    · exact h1
    · show fl64 (-2) = -2
      rw [fl64_neg, h2]
  · have : (List.ofFn fun i => |(![1, -2] : Fin 2 → ℝ) i|) = [1] ++ [2] := by simp
    rw [this]
    exact FlSum.add (FlSum.single _) (FlSum.single _)
  · intro j
    fin_cases j
    · show 2⁻¹ ^ 53 * (|(1 : ℝ)| + 1) + 2⁻¹ ^ 1075 < 1
      rw [abs_one]; generalize (2⁻¹ : ℝ) ^ 1075 = e at hsmall ⊢; norm_num at hsmall ⊢; linarith
    · show 2⁻¹ ^ 53 * (|(-2 : ℝ)| + 1) + 2⁻¹ ^ 1075 < 1
      rw [abs_neg, abs_two]; generalize (2⁻¹ : ℝ) ^ 1075 = e at hsmall ⊢; norm_num at hsmall ⊢; linarith

end Copt
