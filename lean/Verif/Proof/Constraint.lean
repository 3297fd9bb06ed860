import Verif.Proof.Basic
import Verif.Model.Constraint
import Mathlib.Data.List.Sort
import Mathlib.Algebra.BigOperators.Fin

set_option linter.unusedSectionVars false

namespace Copt

open Spec

variable {K : Type} [Field K] [LinearOrder K] [IsStrictOrderedRing K] {n : ℕ}

/-! ### scalars -/

theorem npSign_mul_self_abs (x : K) : npSign x * x = |x| := by
  unfold npSign; split_ifs with h1 h2
  · rw [abs_of_pos h1]; ring
  · rw [abs_of_neg h2]; ring
  · have : x = 0 := le_antisymm (not_lt.mp h1) (not_lt.mp h2)
    simp [this]

theorem abs_npSign_le (x : K) : |npSign x| ≤ 1 := by
  unfold npSign; split_ifs <;> simp

theorem npSign_sq (x : K) (h : x ≠ 0) : npSign x * npSign x = 1 := by
  unfold npSign; split_ifs with h1 h2
  · simp
  · simp
  · exact absurd (le_antisymm (not_lt.mp h1) (not_lt.mp h2)) h

theorem npSign_mul_abs (x : K) : npSign x * |x| = x := by
  unfold npSign; split_ifs with h1 h2
  · rw [abs_of_pos h1]; ring
  · rw [abs_of_neg h2]; ring
  · have : x = 0 := le_antisymm (not_lt.mp h1) (not_lt.mp h2)
    simp [this]

/-! ### argmax -/

theorem npArgmax_ok {u : Fin n → K} {j : Fin n} (h : npArgmax u = .ok j) : ∀ i, u i ≤ u j := by
  unfold npArgmax at h
  split at h
  · rename_i j' hj'
    injection h with h; subst h
    intro i
    exact List.le_of_mem_argmax (List.mem_finRange i) hj'
  · cases h

theorem npArgmax_total (hn : 0 < n) (u : Fin n → K) : ∃ j, npArgmax u = .ok j := by
  unfold npArgmax
  split
  · exact ⟨_, rfl⟩
  · rename_i h
    rw [List.argmax_eq_none] at h
    have := congrArg List.length h
    simp at this; omega

/-! ### sorting -/

theorem sortDesc_perm (v : Fin n → K) : (sortDesc v).Perm (List.ofFn v) :=
  (List.reverse_perm _).trans (List.mergeSort_perm _ _)

theorem sortDesc_length (v : Fin n → K) : (sortDesc v).length = n := by
  rw [(sortDesc_perm v).length_eq, List.length_ofFn]

theorem sortDesc_pairwise (v : Fin n → K) : (sortDesc v).Pairwise (fun a b => b ≤ a) := by
  unfold sortDesc
  rw [List.pairwise_reverse]
  have := List.pairwise_mergeSort (le := fun a b : K => decide (a ≤ b))
    (by intro a b c; simpa using le_trans) (by intro a b; simpa using le_total a b) (List.ofFn v)
  exact this.imp (by intro a b h; simpa using h)

theorem sortDesc_map_sum (v : Fin n → K) (f : K → K) :
    ((sortDesc v).map f).sum = ∑ i, f (v i) := by
  rw [((sortDesc_perm v).map f).sum_eq, List.map_ofFn, List.sum_ofFn]; rfl

/-! ### the threshold -/

/-- Sum of positive parts of a descending list whose first `k` entries exceed `θ` and whose other
entries do not. -/
theorem sum_posPart_of_split (u : List K) (θ : K) (k : ℕ)
    (h1 : ∀ i (h : i < u.length), i < k → θ ≤ u[i])
    (h2 : ∀ i (h : i < u.length), k ≤ i → u[i] ≤ θ) (hk : k ≤ u.length) :
    (u.map (fun a => max (a - θ) 0)).sum = (u.take k).sum - k * θ := by
  induction u generalizing k with
  | nil => simp at hk; subst hk; simp
  | cons a u ih =>
    cases k with
    | zero =>
      have ha : a ≤ θ := h2 0 (by simp) le_rfl
      have := ih 0 (by intro i h hi; omega) (by intro i h _; exact h2 (i+1) (by simpa using h) (by omega)) (by omega)
      simp only [List.map_cons, List.sum_cons, this]
      rw [max_eq_right (by linarith)]; simp
    | succ k =>
      have ha : θ ≤ a := h1 0 (by simp) (by omega)
      have := ih k (by intro i h hi; exact h1 (i+1) (by simpa using h) (by omega))
        (by intro i h hi; exact h2 (i+1) (by simpa using h) (by omega)) (by simpa using hk)
      simp only [List.map_cons, List.sum_cons, this, List.take_succ_cons]
      rw [max_eq_left (by linarith)]; push_cast; ring

theorem simplexCandidates_mem {u : List K} {s : K} {k : ℕ} :
    k ∈ simplexCandidates u s ↔ ∃ h : k < u.length, cumsumAt u k - s < u[k] * (k + 1) := by
  unfold simplexCandidates
  rw [List.mem_filter, List.mem_range]
  constructor
  · rintro ⟨h, h2⟩
    refine ⟨h, ?_⟩
    simpa [List.getD_eq_getElem?_getD, h] using h2
  · rintro ⟨h, h2⟩
    refine ⟨h, ?_⟩
    simpa [List.getD_eq_getElem?_getD, h] using h2

theorem cumsumAt_zero (u : List K) (h : 0 < u.length) : cumsumAt u 0 = u[0] := by
  unfold cumsumAt
  rcases u with _ | ⟨a, u⟩
  · simp at h
  · simp

theorem getLast?_filter_range_max {p : ℕ → Bool} {m r : ℕ}
    (h : ((List.range m).filter p).getLast? = some r) :
    r ∈ (List.range m).filter p ∧ ∀ k ∈ (List.range m).filter p, k ≤ r := by
  have hmem : r ∈ (List.range m).filter p := List.mem_of_getLast? h
  refine ⟨hmem, fun k hk => ?_⟩
  have hsorted : ((List.range m).filter p).Pairwise (· < ·) := List.pairwise_lt_range.filter _
  rw [List.getLast?_eq_some_iff] at h
  obtain ⟨ys, hys⟩ := h
  rw [hys] at hk hsorted
  rw [List.mem_append] at hk
  rcases hk with hk | hk
  · rw [List.pairwise_append] at hsorted
    exact (hsorted.2.2 k hk r (by simp)).le
  · simp at hk; omega

/-- The result of `projSimplex` is a thresholding of `v` that sums to `s`. -/
theorem projSimplex_spec (hn : 0 < n) (v : Fin n → K) {s : K} (hs : 0 < s) :
    ∃ θ : K, projSimplex v s = .ok (fun i => max (v i - θ) 0) ∧ ∑ i, max (v i - θ) 0 = s := by
  unfold projSimplex
  rw [if_neg (by simpa using hs)]
  split_ifs with hearly
  · refine ⟨0, ?_, ?_⟩
    · congr 1; funext i; rw [sub_zero, max_eq_left (hearly.2 i)]
    · rw [← hearly.1]; exact Finset.sum_congr rfl fun i _ => by rw [sub_zero, max_eq_left (hearly.2 i)]
  · simp only []
    set u := sortDesc v with hu
    have hlen : u.length = n := sortDesc_length v
    split
    · -- impossible: index 0 is a candidate
      rename_i hnone
      exfalso
      rw [List.getLast?_eq_none_iff] at hnone
      have h0 : (0 : ℕ) ∈ simplexCandidates u s := by
        rw [simplexCandidates_mem]
        refine ⟨by omega, ?_⟩
        have : cumsumAt u 0 = u[0]'(by omega) := by
          exact cumsumAt_zero u (by omega)
        rw [this]; push_cast; linarith
      rw [hnone] at h0; simp at h0
    · rename_i rho hrho
      obtain ⟨hmem, hmax⟩ := getLast?_filter_range_max hrho
      rw [show (List.range u.length).filter _ = simplexCandidates u s from rfl,
        simplexCandidates_mem] at hmem
      obtain ⟨hlt, htest⟩ := hmem
      refine ⟨_, rfl, ?_⟩
      set θ := (cumsumAt u rho - s) / ((rho : K) + 1) with hθ
      have hpos : (0 : K) < (rho : K) + 1 := by positivity
      have hθlt : θ < u[rho] := by rw [hθ, div_lt_iff₀ hpos]; exact htest
      have hpw := sortDesc_pairwise v
      rw [← hu] at hpw
      have hmono : ∀ i j (hi : i < u.length) (hj : j < u.length), i ≤ j → u[j] ≤ u[i] := by
        intro i j hi hj hij
        rcases eq_or_lt_of_le hij with rfl | hij
        · exact le_rfl
        · exact (List.pairwise_iff_getElem.mp hpw) i j hi hj hij
      rw [← sortDesc_map_sum v (fun a => max (a - θ) 0), ← hu,
        sum_posPart_of_split u θ (rho + 1)]
      · have hθ' : θ * ((rho : K) + 1) = cumsumAt u rho - s := by
          rw [hθ]; field_simp
        have : (u.take (rho + 1)).sum = cumsumAt u rho := rfl
        rw [this]; push_cast; linarith
      · intro i hi hik
        exact hθlt.le.trans (hmono i rho hi hlt (by omega))
      · intro i hi hki
        -- the test fails at rho + 1
        have hr1 : rho + 1 < u.length := by omega
        have hnot : ¬ (rho + 1 ∈ simplexCandidates u s) := by
          intro hmem
          have := hmax (rho + 1) hmem
          omega
        rw [simplexCandidates_mem] at hnot
        push Not at hnot
        have h3 := hnot hr1
        have hcs : cumsumAt u (rho + 1) = cumsumAt u rho + u[rho + 1] := by
          unfold cumsumAt
          rw [List.take_add_one (i := rho + 1)]
          simp [hr1]
        rw [hcs] at h3
        push_cast at h3
        have h4 : u[rho + 1] ≤ θ := by
          rw [hθ, le_div_iff₀ hpos]; linarith
        exact (hmono (rho + 1) i hr1 hi hki).trans h4
      · omega

end Copt
