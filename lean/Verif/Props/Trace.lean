import Mathlib.Tactic.FinCases
import Verif.Proof.Trace

/-!
# C08, C09, C18: trace-norm ball and trace norm

The singular value decomposition is a parameter of the model; each theorem assumes its contract
(`Spec.IsSvd`, `Spec.IsLeadingTriple`) only at the matrix it is called on.
-/

set_option linter.unusedSectionVars false

namespace Copt

open Spec Matrix

variable {M N k : ℕ}

/-- The dual definition of the nuclear norm is the sum of the singular values, for every SVD. -/
theorem nuc_eq_sum_of_isSvd {X : Matrix (Fin M) (Fin N) ℝ} {U : Matrix (Fin M) (Fin k) ℝ} {s : Fin k → ℝ}
    {Vt : Matrix (Fin k) (Fin N) ℝ} (h : IsSvd X U s Vt) : nuc X = ∑ i, s i := by
  rw [h.eq]
  refine le_antisymm ?_ ?_
  · refine (nuc_svd_le h.orthU h.orthV s).trans (le_of_eq ?_)
    exact Finset.sum_congr rfl fun i _ => abs_of_nonneg (h.nonneg i)
  · have h1 := frob_le_nuc (U * diagonal s * Vt)
      (opBound_svd h.orthU h.orthV (t := fun _ => 1) (c := 1) (fun _ => by simp))
    rw [frob_svd_svd h.orthU h.orthV] at h1
    simpa using h1

theorem dot_ravel_sub (x y : Fin (M * N) → ℝ) (A : Matrix (Fin M) (Fin N) ℝ) :
    dot (x - ravel A) y = frob (unravel x - A) (unravel y) := by
  rw [dot_eq_frob, unravel_sub, unravel_ravel]

/-- **C08.** If the SVD routine meets its contract at `x`, `TraceBall(alpha, (M, N)).prox(x)` is the
Euclidean (Frobenius) projection of `x` on the nuclear-norm ball of radius `alpha > 0`. -/
theorem C08_trace_ball_prox (svd : Matrix (Fin M) (Fin N) ℝ → SvdOut M N k) (alpha : ℝ) (ha : 0 < alpha)
    (x : Fin (M * N) → ℝ)
    (hsvd : IsSvd (unravel x) (svd (unravel x)).U (svd (unravel x)).s (svd (unravel x)).Vt) :
    ∃ p, TraceBall.prox svd alpha x = .ok p ∧ IsProj (nucBall M N alpha) x p := by
  unfold TraceBall.prox
  rw [reshape_eq_unravel]
  set o := svd (unravel x) with ho
  obtain ⟨t, ht, hproj⟩ := C04_l1_prox_is_projection o.s alpha ha
  unfold L1Ball.prox at ht
  refine ⟨ravel (scaleDot o.U t o.Vt), by simp only [ht]; rfl, ?_⟩
  have hconv : ∀ x ∈ (l1Ball alpha : Set (Fin k → ℝ)), ∀ y ∈ (l1Ball alpha : Set (Fin k → ℝ)), ∀ r : ℝ, 0 ≤ r → r ≤ 1 →
      (1 - r) • x + r • y ∈ (l1Ball alpha : Set (Fin k → ℝ)) := by
    intro x hx y hy r h0 h1
    have hx' : ∑ i, |x i| ≤ alpha := hx
    have hy' : ∑ i, |y i| ≤ alpha := hy
    show ∑ i, |(1 - r) * x i + r * y i| ≤ alpha
    calc ∑ i, |(1 - r) * x i + r * y i| ≤ ∑ i, ((1 - r) * |x i| + r * |y i|) :=
          Finset.sum_le_sum fun i _ => by
            refine (abs_add_le _ _).trans ?_
            rw [abs_mul, abs_mul, abs_of_nonneg h0, abs_of_nonneg (by linarith : 0 ≤ 1 - r)]
      _ = (1 - r) * ∑ i, |x i| + r * ∑ i, |y i| := by
          rw [Finset.sum_add_distrib, ← Finset.mul_sum, ← Finset.mul_sum]
      _ ≤ alpha := by nlinarith
  have hvi := IsProj.vi hproj hconv
  -- the dual bound
  set θ := dot (o.s - t) t / alpha with hθ
  have hb : ∀ i, |(o.s - t) i| ≤ θ := by
    intro i
    have key : ∀ c : ℝ, |c| = 1 → alpha * (c * (o.s - t) i) ≤ dot (o.s - t) t := by
      intro c hc
      have hm : l1Vertex alpha (c, i) ∈ (l1Ball alpha : Set (Fin k → ℝ)) := by
        show norm1 _ ≤ alpha
        rw [norm1_l1Vertex, abs_mul, hc, abs_of_pos ha, mul_one]
      have h := hvi _ hm
      rw [dot_sub_right, dot_l1Vertex] at h
      linarith
    rw [hθ, le_div_iff₀ ha]
    rcases abs_cases ((o.s - t) i) with ⟨h, _⟩ | ⟨h, _⟩
    · have := key 1 (by simp); rw [h]; linarith
    · have := key (-1) (by simp); rw [h]; linarith
  have hθ0 : 0 ≤ θ := by
    have h0 := hvi 0 (by show norm1 _ ≤ alpha; simp [norm1]; exact ha.le)
    rw [dot_sub_right] at h0
    have : dot (o.s - t) (0 : Fin k → ℝ) = 0 := by simp [dot]
    rw [hθ]; exact div_nonneg (by linarith) ha.le
  have hd : unravel x - scaleDot o.U t o.Vt = o.U * diagonal (o.s - t) * o.Vt := by
    rw [scaleDot_eq]; conv_lhs => rw [hsvd.eq]
    exact svd_sub _ _
  refine isProj_of_vi ?_ ?_
  · show nuc _ ≤ alpha
    rw [unravel_ravel, scaleDot_eq]
    exact (nuc_svd_le hsvd.orthU hsvd.orthV t).trans hproj.1
  · intro y hy
    have hy' : nuc (unravel (M := M) (N := N) y) ≤ alpha := hy
    rw [dot_sub_right, dot_ravel_sub, dot_ravel_sub, unravel_ravel, hd]
    rw [scaleDot_eq, frob_svd_svd hsvd.orthU hsvd.orthV]
    have h1 := frob_le_mul_nuc hθ0 (opBound_svd hsvd.orthU hsvd.orthV hb) (unravel y)
    have h2 : θ * nuc (unravel (M := M) (N := N) y) ≤ θ * alpha := mul_le_mul_of_nonneg_left hy' hθ0
    have h3 : θ * alpha = dot (o.s - t) t := by rw [hθ]; field_simp
    have h4 : ∑ i, (o.s - t) i * t i = dot (o.s - t) t := rfl
    linarith

/-- C08, error branch: a non-positive radius raises AssertionError, for every SVD routine. -/
theorem C08_trace_ball_prox_error (svd : Matrix (Fin M) (Fin N) ℝ → SvdOut M N k) (alpha : ℝ) (ha : alpha ≤ 0)
    (x : Fin (M * N) → ℝ) : TraceBall.prox svd alpha x = .error .assertionError := by
  have h := C04_l1_prox_error (svd (reshape M N x)).s alpha ha
  unfold L1Ball.prox at h
  unfold TraceBall.prox
  simp only [h]; rfl

/-- **C09.** If `svds(k=1)` meets its contract at `u`, `TraceBall(alpha).lmo(u, x)` is `s - x` for a
maximiser `s` of `⟨u, ·⟩` on the nuclear-norm ball; the maximal step is 1. -/
theorem C09_trace_ball_lmo (svds1 : Matrix (Fin M) (Fin N) ℝ → (Fin M → ℝ) × ℝ × (Fin N → ℝ)) (alpha : ℝ)
    (ha : 0 ≤ alpha) (u x : Fin (M * N) → ℝ)
    (h : IsLeadingTriple (unravel u) (svds1 (unravel u)).1 (svds1 (unravel u)).2.1 (svds1 (unravel u)).2.2) :
    ∃ s, MaximisesOn (nucBall M N alpha) u s ∧ (TraceBall.lmo svds1 alpha u x).dir = s - x ∧
      (TraceBall.lmo svds1 alpha u x).maxStep = 1 := by
  refine ⟨fun p => alpha * ravel (Matrix.of fun i j => (svds1 (reshape M N u)).1 i * (svds1 (reshape M N u)).2.2 j) p,
    ?_, rfl, rfl⟩
  rw [reshape_eq_unravel]
  set o := svds1 (unravel u) with ho
  set s : Fin (M * N) → ℝ := fun p => alpha * ravel (Matrix.of fun i j => o.1 i * o.2.2 j) p with hs
  have hun : unravel s = alpha • (Matrix.of fun i j => o.1 i * o.2.2 j : Matrix (Fin M) (Fin N) ℝ) := by
    have := unravel_ravel (Matrix.of fun i j => o.1 i * o.2.2 j : Matrix (Fin M) (Fin N) ℝ)
    rw [← this]; rfl
  have hbil : ∀ Z : Matrix (Fin M) (Fin N) ℝ,
      frob (Matrix.of fun i j => o.1 i * o.2.2 j : Matrix (Fin M) (Fin N) ℝ) Z = dot o.1 (Z *ᵥ o.2.2) := by
    intro Z
    unfold frob dot
    refine Finset.sum_congr rfl fun i _ => ?_
    simp only [Matrix.mulVec, dotProduct, Finset.mul_sum, Matrix.of_apply]
    exact Finset.sum_congr rfl fun j _ => by ring
  refine ⟨?_, ?_⟩
  · show nuc _ ≤ alpha
    rw [hun]
    refine nuc_le fun Z hZ => ?_
    rw [frob_smul_left, hbil]
    have := opBound_bilin zero_le_one hZ o.1 o.2.2 h.unitU.le h.unitV.le
    nlinarith
  · intro y hy
    have hy' : nuc (unravel (M := M) (N := N) y) ≤ alpha := hy
    rw [dot_eq_frob, dot_eq_frob u s, hun, frob_smul_right, frob_comm _ (Matrix.of _), hbil, h.eq, dot_smul_right,
      h.unitU]
    have h1 := frob_le_mul_nuc h.nonneg h.top (unravel y)
    have h2 := mul_le_mul_of_nonneg_left hy' h.nonneg
    linarith

/-- **C18.** If the SVD routine meets its contract at `x`, `TraceNorm(alpha, (M, N)).prox(x, step)` is the
unique minimiser of `step * alpha * ‖Y‖_* + 1/2 ‖Y - X‖²`. -/
theorem C18_trace_norm_prox (svd : Matrix (Fin M) (Fin N) ℝ → SvdOut M N k) (alpha step : ℝ) (ha : 0 ≤ alpha)
    (hs : 0 ≤ step) (x : Fin (M * N) → ℝ)
    (hsvd : IsSvd (unravel x) (svd (unravel x)).U (svd (unravel x)).s (svd (unravel x)).Vt) :
    IsProx (fun y => alpha * nuc (unravel (M := M) (N := N) y)) step x (TraceNorm.prox svd alpha x step) := by
  unfold TraceNorm.prox
  rw [reshape_eq_unravel]
  set o := svd (unravel x) with ho
  set w := alpha * step with hw
  have hw0 : 0 ≤ w := mul_nonneg ha hs
  show IsProx _ _ _ (ravel (scaleDot o.U (fun i => softE w (o.s i)) o.Vt))
  set t : Fin k → ℝ := fun i => softE w (o.s i) with ht
  have hd : unravel x - scaleDot o.U t o.Vt = o.U * diagonal (o.s - t) * o.Vt := by
    rw [scaleDot_eq]; conv_lhs => rw [hsvd.eq]
    exact svd_sub _ _
  have hsg : ∀ i (y : ℝ), w * |t i| + (o.s i - t i) * (y - t i) ≤ w * |y| := fun i y => softE_subgrad hw0 (o.s i) y
  have h0 : ∀ i, w * |t i| ≤ (o.s i - t i) * t i := fun i => by have := hsg i 0; simp at this; linarith
  have hb : ∀ i, |(o.s - t) i| ≤ w := by
    intro i
    have e : (o.s - t) i = o.s i - t i := rfl
    have h2 := hsg i (t i + 1)
    have h3 := hsg i (t i - 1)
    have h4 := mul_le_mul_of_nonneg_left (abs_add_le (t i) 1) hw0
    have h5 := mul_le_mul_of_nonneg_left (abs_sub (t i) 1) hw0
    rw [abs_one] at h4 h5
    rw [e]; exact abs_le.mpr ⟨by linarith, by linarith⟩
  refine isProx_of_subgrad fun y => ?_
  rw [dot_sub_right, dot_ravel_sub, dot_ravel_sub, unravel_ravel, hd]
  rw [scaleDot_eq, frob_svd_svd hsvd.orthU hsvd.orthV]
  have h1 := frob_le_mul_nuc hw0 (opBound_svd hsvd.orthU hsvd.orthV hb) (unravel y)
  have h2 := mul_le_mul_of_nonneg_left (nuc_svd_le hsvd.orthU hsvd.orthV t) hw0
  have h3 : w * ∑ i, |t i| ≤ ∑ i, (o.s - t) i * t i := by
    rw [Finset.mul_sum]; exact Finset.sum_le_sum fun i _ => h0 i
  have e1 : ∀ r : ℝ, step * (alpha * r) = w * r := fun r => by rw [hw]; ring
  rw [e1, e1]
  linarith

/-- C18, penalty value: `TraceNorm.__call__` returns `alpha` times the nuclear norm. -/
theorem C18_call (svd : Matrix (Fin M) (Fin N) ℝ → SvdOut M N k) (alpha : ℝ) (x : Fin (M * N) → ℝ)
    (hsvd : IsSvd (unravel x) (svd (unravel x)).U (svd (unravel x)).s (svd (unravel x)).Vt) :
    TraceNorm.call svd alpha x = alpha * nuc (unravel (M := M) (N := N) x) := by
  unfold TraceNorm.call; rw [nuc_eq_sum_of_isSvd hsvd, reshape_eq_unravel]

/-! ### The hypotheses are met: the matrix `[[0, 3], [1, 0]]` -/

/-- `[[0, 3], [1, 0]]`, raveled. -/
def exX : Fin (2 * 2) → ℝ := ![0, 3, 1, 0]

def exSvd : Matrix (Fin 2) (Fin 2) ℝ → SvdOut 2 2 2 := fun _ => ⟨!![1, 0; 0, 1], ![3, 1], !![0, 1; 1, 0]⟩

theorem exX_unravel : unravel (M := 2) (N := 2) exX = !![0, 3; 1, 0] := by
  ext i j; fin_cases i <;> fin_cases j <;> rfl

theorem exSvd_ok : IsSvd (unravel exX) (exSvd (unravel exX)).U (exSvd (unravel exX)).s (exSvd (unravel exX)).Vt := by
  rw [exX_unravel]
  refine ⟨?_, ?_, ?_, ?_⟩
  · ext i j; fin_cases i <;> fin_cases j <;> simp [exSvd, Matrix.mul_apply, Fin.sum_univ_two]
  · ext i j; fin_cases i <;> fin_cases j <;> simp [exSvd, Matrix.mul_apply, Fin.sum_univ_two]
  · intro i; fin_cases i <;> simp [exSvd]
  · ext i j; fin_cases i <;> fin_cases j <;> simp [-Matrix.mul_assoc, exSvd, Matrix.mul_apply, Fin.sum_univ_two, Matrix.vecMul, dotProduct]

example : ∃ p, TraceBall.prox exSvd 2 exX = .ok p ∧ IsProj (nucBall 2 2 2) exX p :=
  C08_trace_ball_prox exSvd 2 (by norm_num) exX exSvd_ok

example : IsProx (fun y => 2 * nuc (unravel (M := 2) (N := 2) y)) 1 exX (TraceNorm.prox exSvd 2 exX 1) :=
  C18_trace_norm_prox exSvd 2 1 (by norm_num) (by norm_num) exX exSvd_ok

theorem exTriple_ok : IsLeadingTriple (unravel exX) ![1, 0] 3 ![0, 1] := by
  rw [exX_unravel]
  refine ⟨by simp [dot], by simp [dot], by norm_num, ?_, ?_⟩
  · ext i; fin_cases i <;> simp
  · intro v
    simp [dot, Fin.sum_univ_two, Matrix.mulVec, dotProduct]
    nlinarith [sq_nonneg (v 0)]

example : ∃ s, MaximisesOn (nucBall 2 2 5) exX s ∧
    (TraceBall.lmo (fun _ => (![1, 0], 3, ![0, 1])) 5 exX 0).dir = s - 0 ∧
    (TraceBall.lmo (fun _ => (![1, 0], 3, ![0, 1])) 5 exX 0).maxStep = 1 :=
  C09_trace_ball_lmo (fun _ => (![1, 0], 3, ![0, 1])) 5 (by norm_num) exX 0 exTriple_ok

end Copt
