import Verif.Props.Nonexpansive
import Verif.Props.SplittingObjects
import Verif.Proof.Svd

/-!
# C109: the indicator functions of the constraints; C73 for the trace norm

`L1Ball.__call__` and `TraceBall.__call__` decide membership of the sets on which the same objects project;
`TraceBall.__call__` with the tolerance it adds to the radius.
-/

set_option linter.unusedSectionVars false

namespace Copt

open Spec Matrix

section General
variable {K : Type} [Field K] [LinearOrder K] [IsStrictOrderedRing K] {n : ℕ}

/-- **C109 (`L1Ball`).** The indicator is 0 exactly on the l1 ball and infinite exactly outside. -/
theorem C109_l1_call (alpha : K) (x : Fin n → K) : (L1Ball.call alpha x = some 0 ↔ x ∈ l1Ball alpha) ∧
    (L1Ball.call alpha x = none ↔ x ∉ l1Ball alpha) := by
  have e : x ∈ l1Ball alpha ↔ ∑ i, |x i| ≤ alpha := Iff.rfl
  rw [e]
  unfold L1Ball.call
  constructor <;> split <;> simp_all

/-- **C109 (`L1Ball`).** Every value of the projection has indicator 0, and the indicator of a point is 0 exactly when
the projection returns the point itself. -/
theorem C109_l1_prox (alpha : K) (ha : 0 < alpha) (x : Fin n → K) :
    (∃ p, L1Ball.prox alpha x = .ok p ∧ L1Ball.call alpha p = some 0) ∧
      (L1Ball.call alpha x = some 0 ↔ L1Ball.prox alpha x = .ok x) := by
  obtain ⟨p, h1, h2⟩ := C04_l1_prox_is_projection x alpha ha
  refine ⟨⟨p, h1, (C109_l1_call alpha p).1.mpr h2.1⟩, ?_⟩
  rw [(C109_l1_call alpha x).1, h1]
  constructor
  · intro hx
    rw [proj_of_mem h2 hx]
  · intro h
    rw [← Except.ok.inj h]
    exact h2.1

end General

variable {M N k : ℕ}

/-- The singular values of every matrix, in some order (what `linalg.svdvals` returns). -/
def ExactVals (svdvals : Matrix (Fin M) (Fin N) ℝ → Fin k → ℝ) : Prop := ∀ X, ∃ U Vt, IsSvd X U (svdvals X) Vt

/-- **C109 (`TraceBall`).** The indicator is 0 exactly up to `2⁻²³` beyond the radius, infinite otherwise. -/
theorem C109_trace_call (svdvals : Matrix (Fin M) (Fin N) ℝ → Fin k → ℝ) (hv : ExactVals svdvals) (alpha : ℝ) (x : Fin (M * N) → ℝ) :
    (TraceBall.call svdvals alpha x = some 0 ↔ x ∈ nucBall M N (alpha + 2⁻¹ ^ 23)) ∧
      (TraceBall.call svdvals alpha x = none ↔ x ∉ nucBall M N (alpha + 2⁻¹ ^ 23)) := by
  obtain ⟨U, Vt, h⟩ := hv (unravel x)
  have e : x ∈ nucBall M N (alpha + 2⁻¹ ^ 23) ↔ ∑ i, svdvals (reshape M N x) i ≤ alpha + 2⁻¹ ^ 23 := by
    rw [reshape_eq_unravel, ← nuc_eq_sum_of_isSvd h]
    exact Iff.rfl
  rw [e]
  unfold TraceBall.call
  constructor <;> split <;> simp_all

/-- **C109 (`TraceBall`).** The indicator is 0 on the ball and on every value of the projection. -/
theorem C109_trace_prox (svdvals : Matrix (Fin M) (Fin N) ℝ → Fin k → ℝ) (hv : ExactVals svdvals) {l : ℕ}
    (svd : Matrix (Fin M) (Fin N) ℝ → SvdOut M N l) (hs : ∀ X, IsSvd X (svd X).U (svd X).s (svd X).Vt) (alpha : ℝ) (ha : 0 < alpha)
    (x : Fin (M * N) → ℝ) :
    (x ∈ nucBall M N alpha → TraceBall.call svdvals alpha x = some 0 ∧ TraceBall.prox svd alpha x = .ok x) ∧
      ∃ p, TraceBall.prox svd alpha x = .ok p ∧ TraceBall.call svdvals alpha p = some 0 := by
  obtain ⟨p, h1, h2⟩ := C08_trace_ball_prox svd alpha ha x (hs _)
  have hmono : ∀ y ∈ nucBall M N alpha, TraceBall.call svdvals alpha y = some 0 := fun y hy =>
    (C109_trace_call svdvals hv alpha y).1.mpr (le_trans (show nuc _ ≤ alpha from hy) (by norm_num))
  exact ⟨fun hx => ⟨hmono x hx, by rw [h1, proj_of_mem h2 hx]⟩, p, h1, hmono p h2.1⟩

/-- **C109 (`TraceBall`).** A point with indicator 0 is within `2⁻²³` of the ball: the projection moves it by no more. -/
theorem C109_trace_near (svdvals : Matrix (Fin M) (Fin N) ℝ → Fin k → ℝ) (hv : ExactVals svdvals) {l : ℕ}
    (svd : Matrix (Fin M) (Fin N) ℝ → SvdOut M N l) (hs : ∀ X, IsSvd X (svd X).U (svd X).s (svd X).Vt) (alpha : ℝ) (ha : 0 < alpha)
    (x : Fin (M * N) → ℝ) (hx : TraceBall.call svdvals alpha x = some 0) :
    ∃ p, TraceBall.prox svd alpha x = .ok p ∧ p ∈ nucBall M N alpha ∧ sqDist p x ≤ (2⁻¹ ^ 23) ^ 2 := by
  obtain ⟨p, h1, h2⟩ := C08_trace_ball_prox svd alpha ha x (hs _)
  refine ⟨p, h1, h2.1, ?_⟩
  have hm : nuc (unravel (M := M) (N := N) x) ≤ alpha + 2⁻¹ ^ 23 := (C109_trace_call svdvals hv alpha x).1.mp hx
  rcases le_or_gt (nuc (unravel (M := M) (N := N) x)) alpha with hin | hout
  · rw [proj_of_mem h2 hin]
    have : sqDist x x = 0 := by simp [sqDist]
    rw [this]
    positivity
  -- compare with the radial contraction of `x`
  set v := nuc (unravel (M := M) (N := N) x) with hvdef
  have hv0 : 0 < v := ha.trans hout
  have hy : (alpha / v) • x ∈ nucBall M N alpha := by
    show nuc (unravel (M := M) (N := N) ((alpha / v) • x)) ≤ alpha
    rw [(nuc_semi (M := M) (N := N)).smul, abs_of_pos (div_pos ha hv0), ← hvdef]
    exact (div_mul_cancel₀ _ hv0.ne').le
  have hle : sqDist p x ≤ sqDist ((alpha / v) • x) x := by
    by_cases hpe : (alpha / v) • x = p
    · rw [hpe]
    · exact (h2.2 _ hy hpe).le
  refine hle.trans ?_
  have e : sqDist ((alpha / v) • x) x = (1 - alpha / v) ^ 2 * dot x x := by
    unfold sqDist dot
    rw [Finset.mul_sum]
    exact Finset.sum_congr rfl fun i _ => by simp only [Pi.smul_apply, smul_eq_mul]; ring
  have hd : dot x x ≤ v ^ 2 := by
    rw [dot_eq_frob (M := M) (N := N)]
    exact frob_self_le_nuc_sq _
  rw [e]
  calc (1 - alpha / v) ^ 2 * dot x x ≤ (1 - alpha / v) ^ 2 * v ^ 2 := mul_le_mul_of_nonneg_left hd (sq_nonneg _)
    _ = (v - alpha) ^ 2 := by field_simp
    _ ≤ (2⁻¹ ^ 23) ^ 2 := by
        have h0 : 0 ≤ v - alpha := by linarith
        exact pow_le_pow_left₀ h0 (by linarith) 2

/-- C109: the tolerance is visible. For every radius and every non-empty shape some point outside the ball has indicator 0. -/
theorem C109_trace_slack (svdvals : Matrix (Fin M) (Fin N) ℝ → Fin k → ℝ) (hv : ExactVals svdvals) (alpha : ℝ) (ha : 0 < alpha)
    (hM : 0 < M) (hN : 0 < N) : ∃ x : Fin (M * N) → ℝ, TraceBall.call svdvals alpha x = some 0 ∧ x ∉ nucBall M N alpha := by
  have hne : ∃ z : Fin (M * N) → ℝ, 0 < nuc (unravel (M := M) (N := N) z) := by
    refine ⟨fun _ => 1, ?_⟩
    have h := frob_self_le_nuc_sq (unravel (M := M) (N := N) fun _ => (1 : ℝ))
    have h2 : 0 < frob (unravel (M := M) (N := N) fun _ => (1 : ℝ)) (unravel fun _ => 1) := by
      have : frob (unravel (M := M) (N := N) fun _ => (1 : ℝ)) (unravel fun _ => 1) = (M : ℝ) * N := by
        simp [frob, unravel]
      rw [this]
      exact mul_pos (by exact_mod_cast hM) (by exact_mod_cast hN)
    have h3 := nuc_nonneg (unravel (M := M) (N := N) fun _ => (1 : ℝ))
    rcases h3.eq_or_lt with h4 | h4
    · rw [← h4] at h
      norm_num at h
      linarith
    · exact h4
  obtain ⟨z, hz⟩ := hne
  have hn : nuc (unravel (M := M) (N := N) (((alpha + 2⁻¹ ^ 23) / nuc (unravel (M := M) (N := N) z)) • z)) = alpha + 2⁻¹ ^ 23 := by
    rw [(nuc_semi (M := M) (N := N)).smul, abs_of_pos (div_pos (by positivity) hz)]
    exact div_mul_cancel₀ _ hz.ne'
  refine ⟨_, (C109_trace_call svdvals hv alpha _).1.mpr hn.le, ?_⟩
  intro h
  have h' : alpha + 2⁻¹ ^ 23 ≤ alpha := hn ▸ (show nuc _ ≤ alpha from h)
  norm_num at h'

/-- `ExactVals` is met, for every shape, by the singular values of the decompositions of `svd_exists`. -/
theorem exactVals_exists (M N : ℕ) : ∃ f : Matrix (Fin M) (Fin N) ℝ → Fin (min M N) → ℝ, ExactVals f := by
  refine ⟨fun X => (svd_exists X).choose_spec.choose, fun X => ?_⟩
  exact ⟨_, (svd_exists X).choose_spec.choose_spec⟩

/-! ### C73: the trace norm and the trace ball -/

/-- **C73 (`TraceBall.prox`).** -/
theorem C73_trace_ball (svd : Matrix (Fin M) (Fin N) ℝ → SvdOut M N k) (hs : ∀ X, IsSvd X (svd X).U (svd X).s (svd X).Vt) (alpha : ℝ)
    (ha : 0 < alpha) (x y : Fin (M * N) → ℝ) :
    ∃ p q, TraceBall.prox svd alpha x = .ok p ∧ TraceBall.prox svd alpha y = .ok q ∧ sqDist p q ≤ sqDist x y ∧ TraceBall.prox svd alpha p = .ok p := by
  obtain ⟨p, h1, h2⟩ := C08_trace_ball_prox svd alpha ha x (hs _)
  obtain ⟨q, k1, k2⟩ := C08_trace_ball_prox svd alpha ha y (hs _)
  obtain ⟨r, l1, l2⟩ := C08_trace_ball_prox svd alpha ha p (hs _)
  refine ⟨p, q, h1, k1, proj_nonexpansive (nucBall_convex alpha) h2 k2, ?_⟩
  rw [l1, proj_of_mem l2 h2.1]

/-- **C73 (`TraceNorm.prox`).** -/
theorem C73_trace_norm (svd : Matrix (Fin M) (Fin N) ℝ → SvdOut M N k) (hsvd : ∀ X, IsSvd X (svd X).U (svd X).s (svd X).Vt) (alpha step : ℝ)
    (ha : 0 ≤ alpha) (hs : 0 ≤ step) (x y : Fin (M * N) → ℝ) :
    sqDist (TraceNorm.prox svd alpha x step) (TraceNorm.prox svd alpha y step) ≤ sqDist x y :=
  prox_nonexpansive hs (semi_scale nuc_semi ha).convex (C18_trace_norm_prox svd alpha step ha hs x (hsvd _))
    (C18_trace_norm_prox svd alpha step ha hs y (hsvd _))

/-- C109 on two points of the plane: inside and outside the l1 ball of radius 2. -/
example : L1Ball.call (2 : ℚ) ![1, -1] = some 0 ∧ L1Ball.call (2 : ℚ) ![2, -1] = none := by
  constructor
  · norm_num [L1Ball.call, Fin.sum_univ_two]
  · norm_num [L1Ball.call, Fin.sum_univ_two]

/-- `C109_trace_near` is not empty: the point of `C109_trace_slack`, with the exact singular values. -/
example : ∃ (f : Matrix (Fin 2) (Fin 3) ℝ → Fin (min 2 3) → ℝ) (x : Fin (2 * 3) → ℝ), ExactVals f ∧ TraceBall.call f 1 x = some 0 ∧
    x ∉ nucBall 2 3 1 := by
  obtain ⟨f, hf⟩ := exactVals_exists 2 3
  obtain ⟨x, h1, h2⟩ := C109_trace_slack f hf 1 one_pos (by norm_num) (by norm_num)
  exact ⟨f, x, hf, h1, h2⟩

end Copt
