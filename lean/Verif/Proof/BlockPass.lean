import Verif.Proof.AnyOrder
import Mathlib.Algebra.Order.Chebyshev

/-! # One pass of inexact proximal block updates

The analysis shared by SAGA and SVRG with a penalty: every inner iteration moves some blocks by a proximal step along a direction that differs from the
gradient by an error, and the error is bounded by the recent movements of the iterates. -/

set_option linter.unusedSectionVars false

namespace Copt

section
variable {p nb : ℕ}

/-- A pass of `n` inner iterations: in iteration `k` the blocks `T k` make the proximal step of length `g * d h` along `u k`, the others stay. -/
structure BlockPass (of : Fin p → Fin nb) (f : (Fin p → ℝ) → ℝ) (grad : (Fin p → ℝ) → Fin p → ℝ) (pen : Fin nb → (Fin p → ℝ) → ℝ) (L g D : ℝ)
    (d : Fin nb → ℝ) (n : ℕ) (x u : ℕ → Fin p → ℝ) (T : ℕ → Fin nb → Prop) : Prop where
  step_pos : 0 < g
  weight_one : ∀ h, 1 ≤ d h
  weight_le : ∀ h, d h ≤ D
  conv : ∀ y z : Fin p → ℝ, f y + ∑ c, grad y c * (z c - y c) ≤ f z
  smooth : ∀ y z : Fin p → ℝ, f z ≤ f y + ∑ c, grad y c * (z c - y c) + L / 2 * ‖euc z - euc y‖ ^ 2
  lip : ∀ y z : Fin p → ℝ, ‖euc (grad y) - euc (grad z)‖ ≤ L * ‖euc y - euc z‖
  loc : ∀ h (y z : Fin p → ℝ), (∀ c, of c = h → y c = z c) → pen h y = pen h z
  keep : ∀ k < n, ∀ c, ¬T k (of c) → x (k + 1) c = x k c
  sub : ∀ k < n, ∀ h, T k h → ∀ y : Fin p → ℝ,
    pen h (x (k + 1)) + ∑ c, (if of c = h then ((x k c - x (k + 1) c) / (g * d h) - u k c) * (y c - x (k + 1) c) else 0) ≤ pen h y

open Classical in
/-- The error of the direction on the blocks that move. -/
noncomputable def passErr (of : Fin p → Fin nb) (grad : (Fin p → ℝ) → Fin p → ℝ) (x u : ℕ → Fin p → ℝ) (T : ℕ → Fin nb → Prop) (k : ℕ) : Fin p → ℝ :=
  fun c => if T k (of c) then u k c - grad (x k) c else 0

theorem sum_over_blocks (of : Fin p → Fin nb) (v : Fin p → ℝ) : ∑ h : Fin nb, ∑ c, (if of c = h then v c else 0) = ∑ c, v c := by
  rw [Finset.sum_comm]
  exact Finset.sum_congr rfl fun c _ => by simp

variable {of : Fin p → Fin nb} {f : (Fin p → ℝ) → ℝ} {grad : (Fin p → ℝ) → Fin p → ℝ} {pen : Fin nb → (Fin p → ℝ) → ℝ} {L g D : ℝ}
  {d : Fin nb → ℝ} {n : ℕ} {x u : ℕ → Fin p → ℝ} {T : ℕ → Fin nb → Prop}

/-- One inner iteration decreases the objective up to the error. -/
theorem BlockPass.descent (hB : BlockPass of f grad pen L g D d n x u T) {k : ℕ} (hk : k < n) :
    f (x (k + 1)) + ∑ h, pen h (x (k + 1)) + (1 / (g * D) - L / 2) * ‖euc (x (k + 1)) - euc (x k)‖ ^ 2 ≤
      f (x k) + ∑ h, pen h (x k) + ‖euc (passErr of grad x u T k)‖ * ‖euc (x (k + 1)) - euc (x k)‖ := by
  classical
  set e := passErr of grad x u T k with he
  set D' : Fin p → ℝ := fun c => x (k + 1) c - x k c with hD'
  have hg := hB.step_pos
  have hnorm : ‖euc (x (k + 1)) - euc (x k)‖ ^ 2 = ∑ c, D' c ^ 2 := by
    have : euc (x (k + 1)) - euc (x k) = euc D' := rfl
    rw [this, norm_euc_sq]
  have hpen : ∀ h, pen h (x (k + 1)) + ∑ c, (if of c = h then D' c ^ 2 / (g * D) + (grad (x k) c + e c) * D' c else 0) ≤ pen h (x k) := by
    intro h
    have hd1 := hB.weight_one h
    have hdD := hB.weight_le h
    by_cases hT : T k h
    · refine le_trans (add_le_add le_rfl (Finset.sum_le_sum fun c _ => ?_)) (hB.sub k hk h hT (x k))
      by_cases hc : of c = h
      · rw [if_pos hc, if_pos hc]
        have h1 : e c = u k c - grad (x k) c := by simp only [he, passErr, hc, if_pos hT]
        have h2 : D' c ^ 2 / (g * D) ≤ D' c ^ 2 / (g * d h) := by
          refine div_le_div_of_nonneg_left (sq_nonneg _) (by positivity) (mul_le_mul_of_nonneg_left hdD hg.le)
        have h3 : ((x k c - x (k + 1) c) / (g * d h) - u k c) * (x k c - x (k + 1) c) = D' c ^ 2 / (g * d h) + u k c * D' c := by
          simp only [hD']; ring
        rw [h1, h3]
        have : grad (x k) c + (u k c - grad (x k) c) = u k c := by ring
        rw [this]; linarith
      · rw [if_neg hc, if_neg hc]
    · have h0 : ∀ c, of c = h → D' c = 0 := fun c hc => by
        simp only [hD']; rw [hB.keep k hk c (by rw [hc]; exact hT)]; ring
      have h1 : pen h (x (k + 1)) = pen h (x k) := hB.loc h _ _ fun c hc => hB.keep k hk c (by rw [hc]; exact hT)
      rw [h1]
      refine le_of_eq ?_
      rw [Finset.sum_eq_zero, add_zero]
      intro c _
      by_cases hc : of c = h
      · rw [if_pos hc, h0 c hc]; simp
      · rw [if_neg hc]
  have hsum := Finset.sum_le_sum fun h (_ : h ∈ Finset.univ) => hpen h
  rw [Finset.sum_add_distrib, sum_over_blocks of (fun c => D' c ^ 2 / (g * D) + (grad (x k) c + e c) * D' c)] at hsum
  have hsm := hB.smooth (x k) (x (k + 1))
  have hin : -(‖euc e‖ * ‖euc (x (k + 1)) - euc (x k)‖) ≤ ∑ c, e c * D' c := by
    have h1 := abs_real_inner_le_norm (euc e) (euc (x (k + 1)) - euc (x k))
    have h2 : inner ℝ (euc e) (euc (x (k + 1)) - euc (x k)) = ∑ c, e c * D' c := inner_euc e D'
    rw [h2] at h1
    exact (abs_le.mp h1).1
  have hsplit : ∑ c, (D' c ^ 2 / (g * D) + (grad (x k) c + e c) * D' c) = 1 / (g * D) * ∑ c, D' c ^ 2 + ∑ c, grad (x k) c * D' c + ∑ c, e c * D' c := by
    rw [Finset.mul_sum, ← Finset.sum_add_distrib, ← Finset.sum_add_distrib]
    exact Finset.sum_congr rfl fun c _ => by ring
  rw [hsplit] at hsum
  rw [hnorm] at hsm ⊢
  have : ∑ c, grad (x k) c * (x (k + 1) c - x k c) = ∑ c, grad (x k) c * D' c := rfl
  rw [this] at hsm
  nlinarith

/-- At the end of a pass that moves every block there is a subgradient no larger than the movements and the errors of the pass. -/
theorem BlockPass.subgrad (hB : BlockPass of f grad pen L g D d n x u T) (hall : ∀ h, ∃ k < n, T k h) :
    ∃ v : Fin p → ℝ, (∀ y : Fin p → ℝ, f (x n) + ∑ h, pen h (x n) + ∑ c, v c * (y c - x n c) ≤ f y + ∑ h, pen h y) ∧
      ‖euc v‖ ^ 2 ≤ 3 * ∑ k ∈ Finset.range n, (‖euc (x (k + 1)) - euc (x k)‖ ^ 2 / g ^ 2 + L ^ 2 * ‖euc (x n) - euc (x k)‖ ^ 2 +
        ‖euc (passErr of grad x u T k)‖ ^ 2) := by
  classical
  have hg := hB.step_pos
  -- the last iteration that moves a block
  have hlast : ∀ h, ∃ k < n, T k h ∧ ∀ j < n, k < j → ¬T j h := by
    intro h
    obtain ⟨k0, hk0, hT0⟩ := hall h
    have hne : ((Finset.range n).filter fun k => T k h).Nonempty := ⟨k0, by simp [hk0, hT0]⟩
    have hmax := Finset.max'_mem _ hne
    rw [Finset.mem_filter, Finset.mem_range] at hmax
    refine ⟨_, hmax.1, hmax.2, fun j hj hlt hT => ?_⟩
    have := Finset.le_max' ((Finset.range n).filter fun k => T k h) j (by simp [hj, hT])
    omega
  choose κ hκn hκT hκl using hlast
  have hend : ∀ c, x n c = x (κ (of c) + 1) c := by
    intro c
    have : ∀ j, κ (of c) + 1 ≤ j → j ≤ n → x j c = x (κ (of c) + 1) c := by
      intro j hj
      induction j, hj using Nat.le_induction with
      | base => intro _; rfl
      | succ j hj ih =>
        intro hn
        rw [hB.keep j (by omega) c (hκl _ j (by omega) (by omega)), ih (by omega)]
    exact this n (by have := hκn (of c); omega) le_rfl
  let v : Fin p → ℝ := fun c => grad (x n) c + ((x (κ (of c)) c - x (κ (of c) + 1) c) / (g * d (of c)) - u (κ (of c)) c)
  refine ⟨v, fun y => ?_, ?_⟩
  · have h1 := hB.conv (x n) y
    have h2 : ∀ h, pen h (x n) + ∑ c, (if of c = h then (v c - grad (x n) c) * (y c - x n c) else 0) ≤ pen h y := by
      intro h
      have e1 : pen h (x n) = pen h (x (κ h + 1)) := hB.loc h _ _ fun c hc => by rw [hend c, hc]
      refine le_of_eq_of_le ?_ (hB.sub (κ h) (hκn h) h (hκT h) y)
      rw [e1]
      congr 1
      refine Finset.sum_congr rfl fun c _ => ?_
      by_cases hc : of c = h
      · rw [if_pos hc, if_pos hc, hend c]
        simp only [v, hc]; ring
      · rw [if_neg hc, if_neg hc]
    have h3 := Finset.sum_le_sum fun h (_ : h ∈ Finset.univ) => h2 h
    rw [Finset.sum_add_distrib, sum_over_blocks of (fun c => (v c - grad (x n) c) * (y c - x n c))] at h3
    have h4 : ∑ c, v c * (y c - x n c) = ∑ c, grad (x n) c * (y c - x n c) + ∑ c, (v c - grad (x n) c) * (y c - x n c) := by
      rw [← Finset.sum_add_distrib]; exact Finset.sum_congr rfl fun c _ => by ring
    rw [h4]; linarith
  · have hc : ∀ c, v c ^ 2 ≤ 3 * ∑ k ∈ Finset.range n, ((x (k + 1) c - x k c) ^ 2 / g ^ 2 + (grad (x n) c - grad (x k) c) ^ 2 +
        passErr of grad x u T k c ^ 2) := by
      intro c
      have hle := Finset.single_le_sum (s := Finset.range n) (f := fun k => (x (k + 1) c - x k c) ^ 2 / g ^ 2 + (grad (x n) c - grad (x k) c) ^ 2 +
        passErr of grad x u T k c ^ 2) (fun k _ => by positivity) (Finset.mem_range.mpr (hκn (of c)))
      refine le_trans ?_ (mul_le_mul_of_nonneg_left hle (by norm_num))
      set k := κ (of c) with hk
      have hd1 := hB.weight_one (of c)
      have he : passErr of grad x u T k c = u k c - grad (x k) c := by unfold passErr; rw [if_pos (hκT (of c))]
      have hv : v c = (x k c - x (k + 1) c) / (g * d (of c)) + (grad (x n) c - grad (x k) c) - passErr of grad x u T k c := by
        rw [he]; simp only [v]; rw [← hk]; ring
      have h1 : ((x k c - x (k + 1) c) / (g * d (of c))) ^ 2 ≤ (x (k + 1) c - x k c) ^ 2 / g ^ 2 := by
        rw [div_pow]
        have : (x k c - x (k + 1) c) ^ 2 = (x (k + 1) c - x k c) ^ 2 := by ring
        rw [this]
        refine div_le_div_of_nonneg_left (sq_nonneg _) (by positivity) (pow_le_pow_left₀ hg.le ?_ 2)
        nlinarith
      rw [hv]
      set a := (x k c - x (k + 1) c) / (g * d (of c))
      set b := grad (x n) c - grad (x k) c
      set e := passErr of grad x u T k c
      nlinarith [sq_nonneg (a - b), sq_nonneg (a + e), sq_nonneg (b + e)]
    rw [norm_euc_sq]
    refine (Finset.sum_le_sum fun c _ => hc c).trans ?_
    rw [← Finset.mul_sum, Finset.sum_comm]
    refine mul_le_mul_of_nonneg_left (Finset.sum_le_sum fun k _ => ?_) (by norm_num)
    rw [Finset.sum_add_distrib, Finset.sum_add_distrib, ← Finset.sum_div]
    have e1 : ∑ c, (x (k + 1) c - x k c) ^ 2 = ‖euc (x (k + 1)) - euc (x k)‖ ^ 2 := (norm_euc_sq _).symm
    have e2 : ∑ c, (grad (x n) c - grad (x k) c) ^ 2 = ‖euc (grad (x n)) - euc (grad (x k))‖ ^ 2 := (norm_euc_sq _).symm
    have e3 : ‖euc (grad (x n)) - euc (grad (x k))‖ ^ 2 ≤ L ^ 2 * ‖euc (x n) - euc (x k)‖ ^ 2 := by
      rw [← mul_pow]; exact pow_le_pow_left₀ (norm_nonneg _) (hB.lip _ _) 2
    rw [e1, e2, norm_euc_sq (passErr of grad x u T k)]
    linarith

/-- The movement of iteration `k`. -/
noncomputable abbrev move (x : ℕ → Fin p → ℝ) (k : ℕ) : ℝ := ‖euc (x (k + 1)) - euc (x k)‖

/-- The sum of the squared movements of a pass. -/
noncomputable def passSq (x : ℕ → Fin p → ℝ) (n : ℕ) : ℝ := ∑ k ∈ Finset.range n, move x k ^ 2

theorem passSq_nonneg (x : ℕ → Fin p → ℝ) (n : ℕ) : 0 ≤ passSq x n := Finset.sum_nonneg fun _ _ => sq_nonneg _

theorem dist_le_moves (x : ℕ → Fin p → ℝ) {j k : ℕ} (hjk : j ≤ k) : ‖euc (x k) - euc (x j)‖ ≤ ∑ i ∈ Finset.Ico j k, move x i := by
  induction k, hjk using Nat.le_induction with
  | base => simp
  | succ k hk ih =>
    rw [Finset.sum_Ico_succ_top hk]
    have : euc (x (k + 1)) - euc (x j) = (euc (x k) - euc (x j)) + (euc (x (k + 1)) - euc (x k)) := by abel
    rw [this]
    exact (norm_add_le _ _).trans (add_le_add ih le_rfl)

theorem moves_mono (x : ℕ → Fin p → ℝ) {j k n : ℕ} (hk : k ≤ n) : ∑ i ∈ Finset.Ico j k, move x i ≤ ∑ i ∈ Finset.range n, move x i := by
  refine Finset.sum_le_sum_of_subset_of_nonneg (fun i hi => ?_) (fun _ _ _ => norm_nonneg _)
  rw [Finset.mem_Ico] at hi
  exact Finset.mem_range.mpr (by omega)

theorem moves_sq (x : ℕ → Fin p → ℝ) (n : ℕ) : (∑ i ∈ Finset.range n, move x i) ^ 2 ≤ n * passSq x n := by
  have := sq_sum_le_card_mul_sum_sq (s := Finset.range n) (f := fun i => move x i)
  simpa [passSq] using this

/-- The decrease of the objective over a pass, when the error of every iteration is bounded by the movements before it, those of the pass before (`Wp`) and
a constant. -/
theorem BlockPass.pass_descent (hB : BlockPass of f grad pen L g D d n x u T) (hn : 0 < n) (hL : 0 ≤ L) (hD : 1 ≤ D) (hstep : 10 * n * L * (g * D) ≤ 1)
    {Wp Qp m : ℝ} (hQp : Wp ^ 2 ≤ n * Qp)
    (herr : ∀ k < n, ‖euc (passErr of grad x u T k)‖ ≤ 2 * L * (Wp + ∑ j ∈ Finset.range k, move x j) + 2 * m) :
    f (x n) + ∑ h, pen h (x n) + 1 / (g * D) / 2 * passSq x n ≤
      f (x 0) + ∑ h, pen h (x 0) + 1 / (g * D) / 8 * Qp + 8 * n * (g * D) * m ^ 2 := by
  have hg := hB.step_pos
  have hgD : 0 < g * D := by positivity
  have hn1 : (1 : ℝ) ≤ n := by exact_mod_cast hn
  set B := 1 / (g * D) with hBdef
  set W := ∑ i ∈ Finset.range n, move x i with hW
  set Q := passSq x n with hQ
  have hW0 : 0 ≤ W := Finset.sum_nonneg fun _ _ => norm_nonneg _
  have hQ0 : 0 ≤ Q := passSq_nonneg x n
  have hWQ : W ^ 2 ≤ n * Q := moves_sq x n
  have hnLB : 10 * n * L ≤ B := by rw [hBdef, le_div_iff₀ hgD]; exact hstep
  have hB0 : 0 < B := by positivity
  have htel : ∀ j ≤ n, f (x j) + ∑ h, pen h (x j) + (B - L / 2) * ∑ k ∈ Finset.range j, move x k ^ 2 ≤
      f (x 0) + ∑ h, pen h (x 0) + ∑ k ∈ Finset.range j, (2 * L * (Wp + W) + 2 * m) * move x k := by
    intro j
    induction j with
    | zero => intro _; simp
    | succ j ih =>
      intro hj
      have h1 := hB.descent (k := j) (by omega)
      have h2 : ‖euc (passErr of grad x u T j)‖ ≤ 2 * L * (Wp + W) + 2 * m := by
        refine (herr j (by omega)).trans ?_
        have : ∑ i ∈ Finset.range j, move x i ≤ W := by
          have := moves_mono x (j := 0) (k := j) (n := n) (by omega)
          simpa using this
        have := mul_le_mul_of_nonneg_left this (by positivity : 0 ≤ 2 * L)
        linarith
      have h3 := mul_le_mul_of_nonneg_right h2 (norm_nonneg (euc (x (j + 1)) - euc (x j)))
      rw [Finset.sum_range_succ, Finset.sum_range_succ, mul_add]
      have := ih (by omega)
      rw [← hBdef] at h1
      simp only [move] at *
      linarith
  have hfin := htel n le_rfl
  rw [← Finset.mul_sum] at hfin
  have hQeq : ∑ k ∈ Finset.range n, move x k ^ 2 = Q := rfl
  rw [hQeq] at hfin
  have k1 : 2 * L * (Wp * W) ≤ L * (n * Qp) + L * (n * Q) := by
    have h1 : 2 * (Wp * W) ≤ Wp ^ 2 + W ^ 2 := by nlinarith [sq_nonneg (Wp - W)]
    have := mul_le_mul_of_nonneg_left (h1.trans (add_le_add hQp hWQ)) hL
    linarith
  have k2 : 2 * L * (W * W) ≤ 2 * L * (n * Q) := mul_le_mul_of_nonneg_left (by rw [← sq]; exact hWQ) (by positivity)
  have k3 : 2 * m * W ≤ B / 8 * Q + 8 * n * (g * D) * m ^ 2 := by
    have hBg : B * (g * D) = 1 := by rw [hBdef]; field_simp
    have h1 : 0 ≤ (W * B - 8 * n * m) ^ 2 := sq_nonneg _
    have h2 : W ^ 2 * B ^ 2 ≤ n * Q * B ^ 2 := mul_le_mul_of_nonneg_right hWQ (sq_nonneg _)
    have h3 : 16 * n * B * (m * W) ≤ n * Q * B ^ 2 + 64 * n ^ 2 * m ^ 2 := by nlinarith
    have h4 : 8 * n * B * (2 * m * W) ≤ 8 * n * B * (B / 8 * Q + 8 * n * (g * D) * m ^ 2) := by
      have e1 : 8 * n * B * (B / 8 * Q + 8 * n * (g * D) * m ^ 2) = n * Q * B ^ 2 + 64 * n ^ 2 * m ^ 2 * (B * (g * D)) := by ring
      rw [e1, hBg]; linarith
    exact le_of_mul_le_mul_left h4 (by positivity)
  have k4 : L * Q ≤ B / 10 * Q := by
    refine mul_le_mul_of_nonneg_right ?_ hQ0
    have : 10 * L ≤ 10 * n * L := by nlinarith
    linarith
  have k5 : L * (n * Q) ≤ B / 10 * Q := by
    have := mul_le_mul_of_nonneg_right hnLB hQ0
    linarith
  have hQp0 : 0 ≤ Qp := by
    have := (sq_nonneg Wp).trans hQp
    by_contra hc
    push Not at hc
    nlinarith
  have k6 : L * (n * Qp) ≤ B / 10 * Qp := by
    have := mul_le_mul_of_nonneg_right hnLB hQp0
    linarith
  nlinarith [mul_nonneg hB0.le hQ0, mul_nonneg hB0.le hQp0]

/-- The distance to optimality at the end of a pass, in terms of the movements. -/
theorem BlockPass.pass_gap (hB : BlockPass of f grad pen L g D d n x u T) (hn : 0 < n) (hL : 0 ≤ L) (hD : 1 ≤ D) (hstep : 10 * n * L * (g * D) ≤ 1)
    (hall : ∀ h, ∃ k < n, T k h) {Wp Qp : ℝ} (hQp : Wp ^ 2 ≤ n * Qp)
    (herr : ∀ k < n, ‖euc (passErr of grad x u T k)‖ ≤ 2 * L * (Wp + ∑ j ∈ Finset.range k, move x j)) :
    ∃ G, 0 ≤ G ∧ G ^ 2 ≤ (4 * passSq x n + Qp) / g ^ 2 ∧
      ∀ y : Fin p → ℝ, f (x n) + ∑ h, pen h (x n) ≤ f y + ∑ h, pen h y + G * ‖euc (x n) - euc y‖ := by
  have hg := hB.step_pos
  have hgD : 0 < g * D := by positivity
  have hn1 : (1 : ℝ) ≤ n := by exact_mod_cast hn
  obtain ⟨v, hv, hvn⟩ := hB.subgrad hall
  set W := ∑ i ∈ Finset.range n, move x i with hW
  set Q := passSq x n with hQ
  have hW0 : 0 ≤ W := Finset.sum_nonneg fun _ _ => norm_nonneg _
  have hQ0 : 0 ≤ Q := passSq_nonneg x n
  have hWQ : W ^ 2 ≤ n * Q := moves_sq x n
  have hQp0 : 0 ≤ Qp := by
    have := (sq_nonneg Wp).trans hQp
    by_contra hc
    push Not at hc
    nlinarith
  refine ⟨‖euc v‖, norm_nonneg _, ?_, fun y => ?_⟩
  · refine hvn.trans ?_
    have hterm : ∀ k ∈ Finset.range n, move x k ^ 2 / g ^ 2 + L ^ 2 * ‖euc (x n) - euc (x k)‖ ^ 2 + ‖euc (passErr of grad x u T k)‖ ^ 2 ≤
        move x k ^ 2 / g ^ 2 + (L ^ 2 * (n * Q) + 8 * L ^ 2 * (n * Qp + n * Q)) := by
      intro k hk
      have hk := Finset.mem_range.mp hk
      have h1 : ‖euc (x n) - euc (x k)‖ ^ 2 ≤ n * Q := by
        refine le_trans (pow_le_pow_left₀ (norm_nonneg _) ?_ 2) hWQ
        exact (dist_le_moves x hk.le).trans (moves_mono x le_rfl)
      have h2 : ‖euc (passErr of grad x u T k)‖ ^ 2 ≤ 8 * L ^ 2 * (n * Qp + n * Q) := by
        have h3 : ‖euc (passErr of grad x u T k)‖ ≤ 2 * L * (Wp + W) := by
          refine (herr k hk).trans (mul_le_mul_of_nonneg_left (add_le_add le_rfl ?_) (by positivity))
          have := moves_mono x (j := 0) (k := k) (n := n) hk.le
          simpa using this
        have h4 := pow_le_pow_left₀ (norm_nonneg _) h3 2
        refine h4.trans ?_
        have h5 : (Wp + W) ^ 2 ≤ 2 * (n * Qp + n * Q) := by nlinarith [sq_nonneg (Wp - W)]
        calc (2 * L * (Wp + W)) ^ 2 = 4 * L ^ 2 * (Wp + W) ^ 2 := by ring
          _ ≤ 4 * L ^ 2 * (2 * (n * Qp + n * Q)) := mul_le_mul_of_nonneg_left h5 (by positivity)
          _ = _ := by ring
      have := mul_le_mul_of_nonneg_left h1 (sq_nonneg L)
      linarith
    have hsum := (Finset.sum_le_sum hterm).trans (le_of_eq (Finset.sum_add_distrib))
    rw [← Finset.sum_div, Finset.sum_const, Finset.card_range, nsmul_eq_mul] at hsum
    have hQeq : ∑ k ∈ Finset.range n, move x k ^ 2 = Q := rfl
    rw [hQeq] at hsum
    refine (mul_le_mul_of_nonneg_left hsum (by norm_num)).trans ?_
    have hnL : n * L ≤ 1 / (10 * g) := by
      rw [le_div_iff₀ (by positivity)]
      have : 10 * n * L * (g * 1) ≤ 10 * n * L * (g * D) := mul_le_mul_of_nonneg_left (mul_le_mul_of_nonneg_left hD hg.le) (by positivity)
      linarith
    have hnL2 : (n * L) ^ 2 ≤ 1 / (100 * g ^ 2) := by
      have := pow_le_pow_left₀ (by positivity) hnL 2
      refine this.trans (le_of_eq ?_)
      field_simp; norm_num
    have hR : n * (L ^ 2 * (n * Q) + 8 * L ^ 2 * (n * Qp + n * Q)) = (n * L) ^ 2 * (9 * Q + 8 * Qp) := by ring
    rw [hR]
    have h6 : (n * L) ^ 2 * (9 * Q + 8 * Qp) ≤ 1 / (100 * g ^ 2) * (9 * Q + 8 * Qp) := mul_le_mul_of_nonneg_right hnL2 (by positivity)
    have h7 : 1 / (100 * g ^ 2) * (9 * Q + 8 * Qp) = (9 * Q + 8 * Qp) / 100 / g ^ 2 := by field_simp
    rw [h7] at h6
    have h8 : 3 * (Q / g ^ 2 + (9 * Q + 8 * Qp) / 100 / g ^ 2) ≤ (4 * Q + Qp) / g ^ 2 := by
      rw [← add_div, ← mul_div_assoc]
      exact div_le_div_of_nonneg_right (by linarith) (by positivity)
    linarith
  · have h1 := hv y
    have h2 := abs_real_inner_le_norm (euc v) (euc y - euc (x n))
    have h3 : inner ℝ (euc v) (euc y - euc (x n)) = ∑ c, v c * (y c - x n c) := inner_euc v (fun c => y c - x n c)
    rw [h3, norm_sub_rev] at h2
    have := (abs_le.mp h2).1
    linarith

end

end Copt
