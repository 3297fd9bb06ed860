import Verif.Model.FloatFW
import Verif.Proof.InexactFW
import Verif.Proof.FloatOracles

/-! # One iteration of the Frank-Wolfe method on the l1 ball with rounded arithmetic -/

set_option linter.unusedSectionVars false

namespace Copt

open Spec
open scoped InnerProductSpace

variable {rd : ℝ → ℝ} {u eta w : ℝ} {d : ℕ}

local notation "ℓ²" => EuclideanSpace ℝ (Fin d)

/-- The largest coordinate. -/
theorem exists_argmax (hd : 0 < d) (v : Fin d → ℝ) : ∃ i, (List.finRange d).argmax (fun i => |v i|) = some i ∧ ∀ j, |v j| ≤ |v i| := by
  cases h : (List.finRange d).argmax fun i => |v i| with
  | none =>
    rw [List.argmax_eq_none] at h
    have := congrArg List.length h
    simp at this; omega
  | some i => exact ⟨i, rfl, fun j => List.le_of_mem_argmax (f := fun i => |v i|) (List.mem_finRange j) h⟩

/-- The vertex chosen by the oracle. -/
noncomputable def l1Vertex (alpha : ℝ) (v : Fin d → ℝ) : Fin d → ℝ :=
  match (List.finRange d).argmax fun i => |v i| with
  | none => fun _ => 0
  | some i => fun j => if j = i then alpha * SignType.sign (v i) else 0

theorem abs_sign_le (t : ℝ) : |((SignType.sign t : SignType) : ℝ)| ≤ 1 := by
  rcases lt_trichotomy t 0 with h | h | h
  · rw [sign_neg h]; simp
  · rw [h]; simp
  · rw [sign_pos h]; simp

theorem l1Vertex_mem {alpha : ℝ} (ha : 0 ≤ alpha) (v : Fin d → ℝ) : norm1 (l1Vertex alpha v) ≤ alpha := by
  unfold l1Vertex norm1
  cases h : (List.finRange d).argmax fun i => |v i| with
  | none => simpa using ha
  | some i =>
    simp only
    have : ∀ j, |(if j = i then alpha * ((SignType.sign (v i) : SignType) : ℝ) else 0)| = if j = i then |alpha * ((SignType.sign (v i) : SignType) : ℝ)| else 0 := by
      intro j; split_ifs <;> simp
    simp only [this, Finset.sum_ite_eq', Finset.mem_univ, if_true]
    rw [abs_mul, abs_of_nonneg ha]
    exact mul_le_of_le_one_right ha (abs_sign_le _)

theorem l1Vertex_max {alpha : ℝ} (hd : 0 < d) (v : Fin d → ℝ) {y : Fin d → ℝ} (hy : norm1 y ≤ alpha) : dot v y ≤ dot v (l1Vertex alpha v) := by
  obtain ⟨i, hi, hm⟩ := exists_argmax hd v
  have h1 : dot v (l1Vertex alpha v) = alpha * |v i| := by
    unfold l1Vertex dot
    rw [hi]
    simp only [mul_ite, mul_zero, Finset.sum_ite_eq', Finset.mem_univ, if_true]
    rw [← sign_mul_self]; ring
  rw [h1]
  calc dot v y ≤ ∑ j, |v i| * |y j| := Finset.sum_le_sum fun j _ => (le_abs_self _).trans (by
        rw [abs_mul]; exact mul_le_mul_of_nonneg_right (hm j) (abs_nonneg _))
    _ = |v i| * norm1 y := by rw [← Finset.mul_sum]; rfl
    _ ≤ |v i| * alpha := mul_le_mul_of_nonneg_left hy (abs_nonneg _)
    _ = alpha * |v i| := mul_comm _ _

theorem norm1_nonneg' (x : Fin d → ℝ) : 0 ≤ norm1 x := Finset.sum_nonneg fun _ _ => abs_nonneg _

/-- The computed direction. -/
theorem flL1Lmo_error (hr : Rounding rd u eta) {alpha : ℝ} (ha : 0 ≤ alpha) (v x : Fin d → ℝ) :
    ∑ j, |flL1Lmo rd alpha v x j - (l1Vertex alpha v j - x j)| ≤ u * (alpha + norm1 x) + eta := by
  unfold flL1Lmo l1Vertex
  have hu := hr.u_nonneg
  have he := hr.eta_nonneg
  have h0 := norm1_nonneg' x
  cases h : (List.finRange d).argmax fun i => |v i| with
  | none => simp only [zero_sub, sub_self, abs_zero, Finset.sum_const_zero]; positivity
  | some i =>
    simp only
    have : ∀ j, |(if j = i then rd (-x j + alpha * ((SignType.sign (v i) : SignType) : ℝ)) else -x j) - ((if j = i then alpha * ((SignType.sign (v i) : SignType) : ℝ) else 0) - x j)| =
        if j = i then |rd (-x j + alpha * ((SignType.sign (v i) : SignType) : ℝ)) - (-x j + alpha * ((SignType.sign (v i) : SignType) : ℝ))| else 0 := by
      intro j
      split_ifs
      · congr 1; ring
      · simp
    simp only [this, Finset.sum_ite_eq', Finset.mem_univ, if_true]
    refine (hr.err _).trans (add_le_add_left (mul_le_mul_of_nonneg_left ?_ hu) _)
    refine (abs_add_le _ _).trans ?_
    rw [abs_neg, abs_mul, abs_of_nonneg ha]
    have h1 : |x i| ≤ norm1 x := Finset.single_le_sum (f := fun j => |x j|) (fun j _ => abs_nonneg _) (Finset.mem_univ i)
    have h2 := mul_le_of_le_one_right ha (abs_sign_le (v i))
    linarith

theorem norm1_sub_le (x y : Fin d → ℝ) : ∑ j, |x j - y j| ≤ norm1 x + norm1 y := by
  unfold norm1
  rw [← Finset.sum_add_distrib]
  exact Finset.sum_le_sum fun j _ => abs_sub (x j) (y j)

/-- The update. -/
theorem flFwNext_error (hd : 0 < d) (hr : Rounding rd u eta) (hu : u ≤ w) (hw8 : w ≤ 1 / 8) (he : eta ≤ w) (P : FlFWArgs d) (ha : 0 ≤ P.alpha) {k : ℕ} (hs0 : 0 ≤ P.step k) (hs1 : P.step k ≤ 1) (x : Fin d → ℝ) :
    ∑ j, |flFwNext rd P k x j - (x j + P.step k * (l1Vertex P.alpha (fun j => -P.grad k x j) j - x j))| ≤ 6 * w * (P.alpha + norm1 x) + 5 * d * w := by
  have hu0 := hr.u_nonneg
  have he0 := hr.eta_nonneg
  have hw0 : 0 ≤ w := hu0.trans hu
  have hM := norm1_nonneg' x
  have hd1 : (1 : ℝ) ≤ d := by exact_mod_cast hd
  obtain ⟨s, hs⟩ : ∃ s, s = l1Vertex P.alpha fun j => -P.grad k x j := ⟨_, rfl⟩
  obtain ⟨D, hD⟩ : ∃ D, D = flFwDir rd P k x := ⟨_, rfl⟩
  have hA : ∑ j, |D j - (s j - x j)| ≤ u * (P.alpha + norm1 x) + eta := by
    rw [hD, hs]; exact flL1Lmo_error hr ha _ x
  have hT : ∑ j, |s j - x j| ≤ P.alpha + norm1 x := (norm1_sub_le s x).trans (by
    have := l1Vertex_mem ha fun j => -P.grad k x j
    rw [← hs] at this
    linarith)
  rw [← hs]
  have key : ∀ j, |flFwNext rd P k x j - (x j + P.step k * (s j - x j))| ≤ 2 * |D j - (s j - x j)| + 3 * w * |s j - x j| + w * |x j| + 3 * w := by
    intro j
    obtain ⟨g, hg⟩ : ∃ g, g = P.step k := ⟨_, rfl⟩
    obtain ⟨p, hp⟩ : ∃ p, p = rd (g * D j) := ⟨_, rfl⟩
    have hnext : flFwNext rd P k x j = rd (x j + p) := by rw [hp, hg, hD]; rfl
    rw [← hg] at hs0 hs1
    rw [hnext, ← hg]
    obtain ⟨a, ha'⟩ : ∃ a, a = |D j - (s j - x j)| := ⟨_, rfl⟩
    obtain ⟨t, ht⟩ : ∃ t, t = |s j - x j| := ⟨_, rfl⟩
    have a0 : 0 ≤ a := by rw [ha']; exact abs_nonneg _
    have t0 : 0 ≤ t := by rw [ht]; exact abs_nonneg _
    have x0 := abs_nonneg (x j)
    have d1 : |D j| ≤ t + a := by
      have : D j = (s j - x j) + (D j - (s j - x j)) := by ring
      rw [ht, ha']
      calc |D j| = |(s j - x j) + (D j - (s j - x j))| := congrArg _ this
        _ ≤ _ := abs_add_le _ _
    have d2 : |g * D j| ≤ t + a := by
      rw [abs_mul, abs_of_nonneg hs0]
      exact (mul_le_of_le_one_left (abs_nonneg _) hs1).trans d1
    have e1 : |p - g * D j| ≤ w * (t + a) + eta := by
      rw [hp]
      exact (hr.err _).trans (add_le_add_left (mul_le_mul hu d2 (abs_nonneg _) hw0) _)
    have e2 := hr.err (x j + p)
    have p1 : |p| ≤ (t + a) + (w * (t + a) + eta) := by
      have : p = g * D j + (p - g * D j) := by ring
      calc |p| = |g * D j + (p - g * D j)| := congrArg _ this
        _ ≤ _ := (abs_add_le _ _).trans (add_le_add d2 e1)
    have p2 : |x j + p| ≤ |x j| + ((t + a) + (w * (t + a) + eta)) := (abs_add_le _ _).trans (by linarith)
    have e3 : u * |x j + p| ≤ w * (|x j| + ((t + a) + (w * (t + a) + eta))) := mul_le_mul hu p2 (abs_nonneg _) hw0
    have e4 : |g * D j - g * (s j - x j)| ≤ a := by
      rw [← mul_sub, abs_mul, abs_of_nonneg hs0, ha']
      exact mul_le_of_le_one_left (abs_nonneg _) hs1
    have e5 : rd (x j + p) - (x j + g * (s j - x j)) = (rd (x j + p) - (x j + p)) + (p - g * D j) + (g * D j - g * (s j - x j)) := by ring
    rw [e5]
    refine (abs_add_three _ _ _).trans ?_
    have q1 : w * (w * (t + a)) ≤ 1 / 8 * (w * (t + a)) := mul_le_mul_of_nonneg_right hw8 (by positivity)
    have q2 : w * eta ≤ 1 / 8 * eta := mul_le_mul_of_nonneg_right hw8 he0
    have q3 : w * a ≤ 1 / 8 * a := mul_le_mul_of_nonneg_right hw8 a0
    have q4 : 0 ≤ w * t := by positivity
    rw [← ha', ← ht]
    linarith
  calc ∑ j, |flFwNext rd P k x j - (x j + P.step k * (s j - x j))| ≤ ∑ j, (2 * |D j - (s j - x j)| + 3 * w * |s j - x j| + w * |x j| + 3 * w) := Finset.sum_le_sum fun j _ => key j
    _ = 2 * (∑ j, |D j - (s j - x j)|) + 3 * w * (∑ j, |s j - x j|) + w * norm1 x + d * (3 * w) := by
      rw [Finset.sum_add_distrib, Finset.sum_add_distrib, Finset.sum_add_distrib, ← Finset.mul_sum, ← Finset.mul_sum, ← Finset.mul_sum]
      simp [norm1]
    _ ≤ 6 * w * (P.alpha + norm1 x) + 5 * d * w := by
      have h1 := mul_le_mul_of_nonneg_left hT (by linarith : 0 ≤ 3 * w)
      have h2 : u * (P.alpha + norm1 x) ≤ w * (P.alpha + norm1 x) := mul_le_mul_of_nonneg_right hu (by linarith)
      have h3 : w * norm1 x ≤ w * (P.alpha + norm1 x) := mul_le_mul_of_nonneg_left (by linarith) hw0
      have h4 : w ≤ d * w := le_mul_of_one_le_left hw0 hd1
      linarith

/-- The iterates. -/
noncomputable def flFwIter (rd : ℝ → ℝ) (P : FlFWArgs d) : ℕ → Fin d → ℝ
  | 0 => P.x0
  | k + 1 => flFwNext rd P k (flFwIter rd P k)

/-- The iterates leave the ball slowly. -/
theorem flFwIter_drift (hd : 0 < d) (hr : Rounding rd u eta) (hu : u ≤ w) (hw8 : w ≤ 1 / 8) (he : eta ≤ w) (P : FlFWArgs d) (ha : 0 ≤ P.alpha) (hs : ∀ k, 0 ≤ P.step k ∧ P.step k ≤ 1) (hx0 : norm1 P.x0 ≤ P.alpha) :
    ∀ k : ℕ, 12 * k * w ≤ 1 → norm1 (flFwIter rd P k) ≤ P.alpha + k * (2 * ((12 * P.alpha + 5 * d) * w)) := by
  have hw0 : 0 ≤ w := hr.u_nonneg.trans hu
  intro k
  induction k with
  | zero => intro _; simpa [flFwIter] using hx0
  | succ k ih =>
    intro hk
    push_cast at hk ⊢
    have hM := ih (by linarith)
    obtain ⟨x, hx⟩ : ∃ x, x = flFwIter rd P k := ⟨_, rfl⟩
    obtain ⟨c, hc⟩ : ∃ c, c = (12 * P.alpha + 5 * d) * w := ⟨_, rfl⟩
    have hc0 : 0 ≤ c := by rw [hc]; positivity
    rw [← hx, ← hc] at hM
    rw [← hc]
    obtain ⟨hs0, hs1⟩ := hs k
    have h1 := flFwNext_error hd hr hu hw8 he P ha hs0 hs1 x
    have hv := l1Vertex_mem ha fun j => -P.grad k x j
    obtain ⟨s, hsv⟩ : ∃ s, s = l1Vertex P.alpha fun j => -P.grad k x j := ⟨_, rfl⟩
    rw [← hsv] at h1 hv
    have h2 : norm1 (flFwIter rd P (k + 1)) ≤ ((1 - P.step k) * norm1 x + P.step k * norm1 s) + (6 * w * (P.alpha + norm1 x) + 5 * d * w) := by
      refine le_trans ?_ (add_le_add_right h1 _)
      unfold norm1
      rw [Finset.mul_sum, Finset.mul_sum, ← Finset.sum_add_distrib, ← Finset.sum_add_distrib]
      refine Finset.sum_le_sum fun j _ => ?_
      have e1 : flFwIter rd P (k + 1) j = flFwNext rd P k x j := by rw [hx]; rfl
      have e2 : flFwNext rd P k x j = ((1 - P.step k) * x j + P.step k * s j) + (flFwNext rd P k x j - (x j + P.step k * (s j - x j))) := by ring
      rw [e1]
      calc |flFwNext rd P k x j| = |((1 - P.step k) * x j + P.step k * s j) + (flFwNext rd P k x j - (x j + P.step k * (s j - x j)))| := congrArg _ e2
        _ ≤ |(1 - P.step k) * x j + P.step k * s j| + |flFwNext rd P k x j - (x j + P.step k * (s j - x j))| := abs_add_le _ _
        _ ≤ _ := by
          refine add_le_add_left ((abs_add_le _ _).trans (le_of_eq ?_)) _
          rw [abs_mul, abs_mul, abs_of_nonneg hs0, abs_of_nonneg (by linarith : 0 ≤ 1 - P.step k)]
    have h3 : (1 - P.step k) * norm1 x ≤ (1 - P.step k) * (P.alpha + k * (2 * c)) := mul_le_mul_of_nonneg_left hM (by linarith)
    have h4 : P.step k * norm1 s ≤ P.step k * P.alpha := mul_le_mul_of_nonneg_left hv hs0
    have h5 : 0 ≤ P.step k * (k * (2 * c)) := by positivity
    have h6 : 6 * w * norm1 x ≤ 6 * w * (P.alpha + k * (2 * c)) := mul_le_mul_of_nonneg_left hM (by linarith)
    have h7 : 12 * k * w * c ≤ 1 * c := mul_le_mul_of_nonneg_right (by linarith) hc0
    have h8 : 12 * w * P.alpha + 5 * d * w = c := by rw [hc]; ring
    linarith

/-- The loop returns one of the iterates. -/
theorem flFwLoop_spec (rd : ℝ → ℝ) (P : FlFWArgs d) : ∀ m it, ∃ k, it ≤ k ∧ k ≤ it + m ∧ (flFwLoop rd P m it (flFwIter rd P it)).nit = k ∧
    (flFwLoop rd P m it (flFwIter rd P it)).certificate = flFwCert rd P k (flFwIter rd P k) ∧ (∀ i, it ≤ i → i < k → P.tol < flFwCert rd P i (flFwIter rd P i)) ∧
    ((flFwCert rd P k (flFwIter rd P k) ≤ P.tol ∧ (flFwLoop rd P m it (flFwIter rd P it)).x = flFwIter rd P k) ∨
      (P.tol < flFwCert rd P k (flFwIter rd P k) ∧ k = it + m ∧ (flFwLoop rd P m it (flFwIter rd P it)).x = flFwIter rd P (k + 1))) := by
  intro m
  induction m with
  | zero =>
    intro it
    refine ⟨it, le_rfl, le_rfl, ?_⟩
    unfold flFwLoop
    by_cases h : flFwCert rd P it (flFwIter rd P it) ≤ P.tol
    · rw [if_pos h]
      exact ⟨rfl, rfl, fun i h1 h2 => absurd h1 (by omega), Or.inl ⟨h, rfl⟩⟩
    · rw [if_neg h]
      exact ⟨rfl, rfl, fun i h1 h2 => absurd h1 (by omega), Or.inr ⟨not_le.mp h, rfl, rfl⟩⟩
  | succ m ih =>
    intro it
    unfold flFwLoop
    by_cases h : flFwCert rd P it (flFwIter rd P it) ≤ P.tol
    · rw [if_pos h]
      exact ⟨it, le_rfl, by omega, rfl, rfl, fun i h1 h2 => absurd h1 (by omega), Or.inl ⟨h, rfl⟩⟩
    · rw [if_neg h]
      obtain ⟨k, h1, h2, h3, h4, h5, h6⟩ := ih (it + 1)
      refine ⟨k, by omega, by omega, h3, h4, ?_, ?_⟩
      · intro i hi1 hi2
        rcases Nat.eq_or_lt_of_le hi1 with rfl | hi
        · exact not_le.mp h
        · exact h5 i hi hi2
      · rcases h6 with h6 | ⟨h6, h7, h8⟩
        · exact Or.inl h6
        · exact Or.inr ⟨h6, by omega, h8⟩

end Copt
