import Verif.Proof.FloatFWSearch
import Verif.Props.FloatFW
import Verif.Props.FloatLineSearch

/-! # C134: the Frank-Wolfe method on the l1 ball with its default line search, in rounded arithmetic -/

set_option linter.unusedSectionVars false

namespace Copt

open Spec
open scoped InnerProductSpace

variable {d n : ℕ}
variable {f : EuclideanSpace ℝ (Fin d) → ℝ} {g : EuclideanSpace ℝ (Fin d) → EuclideanSpace ℝ (Fin d)} {L alpha K : ℝ} {rd : ℝ → ℝ} {u w : ℝ}

/-- Constants of a problem: `e1 w` bounds the error of the quadratic upper bound along the computed direction, `e2 w` the error of a function value, `cm` the certificate. -/
structure FwsConst (f : EuclideanSpace ℝ (Fin d) → ℝ) (g : EuclideanSpace ℝ (Fin d) → EuclideanSpace ℝ (Fin d)) (L alpha K : ℝ) extends FwConst f g L alpha K where
  c2 : ℝ
  e1 : ℝ
  e2 : ℝ
  cm : ℝ
  tot : ℝ
  c2_def : c2 = 2 * c + 3 * alpha + 1
  e1_def : e1 = (K3 + Gm * (3 * alpha + 1)) + Gm * c2 + L / 2 * ((6 * alpha + 1) * c2)
  e2_def : e2 = K * (1 + 2 * alpha) ^ 2
  cm_def : cm = Gm * (3 * alpha) + 1
  tot_def : tot = e1 + 2 * e2 + (13 * (8 * d + 8) + 8) * cm + 4

/-- The precision is small compared with the constants of the problem and the slack of the line search. -/
structure FwsSmall (k0 : FwsConst f g L alpha K) (rd : ℝ → ℝ) (u w : ℝ) : Prop where
  rnd : Rounding rd u 0
  rd_one : rd 1 = 1
  u_le : u ≤ w
  d_le : 8000 * (d + 1) * w ≤ 1
  K3_le : k0.K3 * w ≤ 1
  c2_le : k0.c2 * w ≤ 1
  c_le : 40 * k0.c * w ≤ alpha
  tot_le : k0.tot * w ≤ fwEPS

section
variable {k0 : FwsConst f g L alpha K}

theorem FwsSmall.w_nonneg (h : FwsSmall k0 rd u w) : 0 ≤ w := h.rnd.u_nonneg.trans h.u_le

theorem FwsSmall.w_le (h : FwsSmall k0 rd u w) : w ≤ 1 / 8000 := by
  have := h.d_le
  have h1 : 0 ≤ (d : ℝ) * w := mul_nonneg (Nat.cast_nonneg d) h.w_nonneg
  linarith

/-- The computed direction, certificate and vertex at a point near the ball. -/
theorem fws_direction (h : FwsSmall k0 rd u w) (ha : 0 < alpha) (hL : 0 ≤ L) (hK : 0 ≤ K) (hG : LipGrad g L) {x gr : Fin d → ℝ} (hx : norm1 x ≤ 1.05 * alpha)
    (hgr : ∀ j, |gr j - g (WithLp.toLp 2 x) j| ≤ K * w * (1 + norm2 x)) {cert : ℝ} (hcert : FlDot rd (List.ofFn fun j => (flL1Lmo rd alpha (fun j => -gr j) x j, -gr j)) cert) :
    0 < d ∧
    ∑ j, |flL1Lmo rd alpha (fun j => -gr j) x j - (l1Vertex alpha (fun j => -gr j) j - x j)| ≤ (3 * alpha + 1) * w ∧
    norm1 (flL1Lmo rd alpha (fun j => -gr j) x) ≤ 2.06 * alpha ∧
    |cert - ⟪g (WithLp.toLp 2 x), WithLp.toLp 2 x - WithLp.toLp 2 (l1Vertex alpha fun j => -gr j)⟫_ℝ| ≤ k0.K3 * w ∧
    (∀ y : Fin d → ℝ, norm1 y ≤ alpha → ⟪g (WithLp.toLp 2 x), WithLp.toLp 2 (l1Vertex alpha fun j => -gr j) - WithLp.toLp 2 y⟫_ℝ ≤ 2 * alpha * (K * (1 + 2 * alpha)) * w) ∧
    (0 < cert → 0 < dot (flL1Lmo rd alpha (fun j => -gr j) x) (flL1Lmo rd alpha (fun j => -gr j) x)) := by
  have hd : 0 < d := by
    have := hcert.pos
    rwa [List.length_ofFn] at this
  have hw0 := h.w_nonneg
  have hw8 := h.w_le
  obtain ⟨hG0, -, -, -⟩ := k0.toFwConst.pos hL ha hK
  obtain ⟨s, hs⟩ : ∃ s, s = l1Vertex alpha fun j => -gr j := ⟨_, rfl⟩
  obtain ⟨D, hD⟩ : ∃ D, D = flL1Lmo rd alpha (fun j => -gr j) x := ⟨_, rfl⟩
  have hsm : norm1 s ≤ alpha := by rw [hs]; exact l1Vertex_mem ha.le _
  have hde : ∑ j, |D j - (s j - x j)| ≤ u * (alpha + norm1 x) + 0 := by
    rw [hD, hs]; exact flL1Lmo_error h.rnd ha.le (fun j => -gr j) x
  have hmax : ∀ y : Fin d → ℝ, norm1 y ≤ alpha → dot (fun j => -gr j) y ≤ dot (fun j => -gr j) s := fun y hy => by rw [hs]; exact l1Vertex_max hd _ hy
  rw [← hD] at hcert
  rw [← hs, ← hD]
  obtain ⟨Gh, hGh⟩ : ∃ Gh, Gh = k0.Gm + K * (1 + 2 * alpha) := ⟨_, rfl⟩
  obtain ⟨Kh, hKh⟩ : ∃ Kh, Kh = K * (1 + 2 * alpha) := ⟨_, rfl⟩
  have hKh0 : 0 ≤ Kh := by rw [hKh]; positivity
  have hGh0 : 0 ≤ Gh := by rw [hGh, ← hKh]; positivity
  have hgd : ∀ j, |gr j - g (WithLp.toLp 2 x) j| ≤ Kh * w := fun j => by
    have h1 := toLp_le_norm1 x
    rw [toLp_norm] at h1
    have h2 : K * w * (1 + norm2 x) ≤ K * w * (1 + 2 * alpha) := mul_le_mul_of_nonneg_left (by linarith) (by positivity)
    rw [hKh]
    linarith [hgr j]
  have hg1 : ∀ j, |gr j| ≤ Gh := fun j => by
    have h1 : |g (WithLp.toLp 2 x) j| ≤ k0.Gm := (abs_le_norm2 _ j).trans (by rw [← norm_ofLp]; exact grad_near k0.toFwConst hG hL (by linarith))
    have h3 : Kh * w ≤ Kh * 1 := mul_le_mul_of_nonneg_left (by linarith) hKh0
    calc |gr j| = |g (WithLp.toLp 2 x) j + (gr j - g (WithLp.toLp 2 x) j)| := congrArg _ (by ring)
      _ ≤ |g (WithLp.toLp 2 x) j| + |gr j - g (WithLp.toLp 2 x) j| := abs_add_le _ _
      _ ≤ Gh := by rw [hGh, ← hKh]; linarith [hgd j]
  have hx0 := norm1_nonneg' x
  have hsx : norm1 (fun j => s j - x j) ≤ 2.05 * alpha := (norm1_sub_le s x).trans (by linarith)
  have haw : 0 ≤ alpha * w := by positivity
  have hde3 : ∑ j, |D j - (s j - x j)| ≤ w * (2.05 * alpha) := by
    have h1 : u * (alpha + norm1 x) ≤ w * (2.05 * alpha) := mul_le_mul h.u_le (by linarith) (by linarith) hw0
    linarith
  have hde2 : ∑ j, |D j - (s j - x j)| ≤ (3 * alpha + 1) * w := by linarith
  have hDn : norm1 D ≤ 2.06 * alpha := by
    have h1 : norm1 D ≤ norm1 (fun j => s j - x j) + ∑ j, |D j - (s j - x j)| := by
      unfold norm1
      rw [← Finset.sum_add_distrib]
      refine Finset.sum_le_sum fun j _ => ?_
      calc |D j| = |(s j - x j) + (D j - (s j - x j))| := congrArg _ (by ring)
        _ ≤ _ := abs_add_le _ _
    have h2 : w * (2.05 * alpha) ≤ 1 / 8000 * (2.05 * alpha) := mul_le_mul_of_nonneg_right hw8 (by linarith)
    linarith
  have hdw : 4 * (d : ℝ) * w ≤ 1 := by
    have := h.d_le
    have h1 : 0 ≤ (d : ℝ) * w := mul_nonneg (Nat.cast_nonneg d) hw0
    linarith
  have hdl : 4 * d * u ≤ 1 := le_trans (mul_le_mul_of_nonneg_left h.u_le (by positivity)) hdw
  have e1 := hcert.error_vec h.rnd hdl
  rw [add_zero] at e1
  have hDn' : norm1 D ≤ 3 * alpha + 1 := by linarith
  have e2 : ∑ j, |D j * -gr j| ≤ Gh * (3 * alpha + 1) := by
    calc ∑ j, |D j * -gr j| ≤ ∑ j, Gh * |D j| := Finset.sum_le_sum fun j _ => by
          rw [abs_mul, abs_neg, mul_comm]; exact mul_le_mul_of_nonneg_right (hg1 j) (abs_nonneg _)
      _ = Gh * norm1 D := by rw [← Finset.mul_sum]; rfl
      _ ≤ _ := mul_le_mul_of_nonneg_left hDn' hGh0
  have e3 : 4 * d * (u * (∑ j, |D j * -gr j|)) ≤ 4 * d * ((Gh * (3 * alpha + 1) + 1) * w) := by
    refine mul_le_mul_of_nonneg_left ?_ (by positivity)
    have : u * (∑ j, |D j * -gr j|) ≤ w * (Gh * (3 * alpha + 1)) := mul_le_mul h.u_le e2 (Finset.sum_nonneg fun _ _ => abs_nonneg _) hw0
    linarith
  have e4 : ⟪g (WithLp.toLp 2 x), WithLp.toLp 2 x - WithLp.toLp 2 s⟫_ℝ = dot (fun j => g (WithLp.toLp 2 x) j) (fun j => x j - s j) := by
    rw [inner_ofLp]; rfl
  have e5 : ∑ j, D j * -gr j - dot (fun j => g (WithLp.toLp 2 x) j) (fun j => x j - s j) =
      dot (fun j => -gr j) (fun j => D j - (s j - x j)) + dot (fun j => g (WithLp.toLp 2 x) j - gr j) (fun j => s j - x j) := by
    unfold dot
    rw [← Finset.sum_sub_distrib, ← Finset.sum_add_distrib]
    exact Finset.sum_congr rfl fun j _ => by ring
  have e6 := abs_dot_le (v := fun j => -gr j) (y := fun j => D j - (s j - x j)) (a := Gh) fun j => by rw [abs_neg]; exact hg1 j
  have e7 := abs_dot_le (v := fun j => g (WithLp.toLp 2 x) j - gr j) (y := fun j => s j - x j) (a := Kh * w) fun j => by rw [abs_sub_comm]; exact hgd j
  have e8 := mul_le_mul_of_nonneg_left hde2 hGh0
  have e9 := mul_le_mul_of_nonneg_left hsx (show 0 ≤ Kh * w by positivity)
  have e10 : k0.K3 * w = 4 * d * ((Gh * (3 * alpha + 1) + 1) * w) + Gh * ((3 * alpha + 1) * w) + Kh * w * (3 * alpha) := by
    rw [k0.K3_def, ← hGh, ← hKh]; ring
  have e11 : Kh * w * (2.05 * alpha) ≤ Kh * w * (3 * alpha) := mul_le_mul_of_nonneg_left (by linarith) (by positivity)
  refine ⟨hd, hde2, hDn, ?_, fun y hy => ?_, fun hc => ?_⟩
  · have e12 : cert - ⟪g (WithLp.toLp 2 x), WithLp.toLp 2 x - WithLp.toLp 2 s⟫_ℝ =
        (cert - ∑ j, D j * -gr j) + (dot (fun j => -gr j) (fun j => D j - (s j - x j)) + dot (fun j => g (WithLp.toLp 2 x) j - gr j) (fun j => s j - x j)) := by
      rw [e4, ← e5]; ring
    rw [e12, e10]
    refine (abs_add_le _ _).trans ?_
    have e13 := abs_add_le (dot (fun j => -gr j) (fun j => D j - (s j - x j))) (dot (fun j => g (WithLp.toLp 2 x) j - gr j) (fun j => s j - x j))
    unfold norm1 at e6
    linarith only [e1, e3, e6, e7, e8, e9, e11, e13]
  · have hm := hmax y hy
    have t1 : ⟪g (WithLp.toLp 2 x), WithLp.toLp 2 s - WithLp.toLp 2 y⟫_ℝ = dot (fun j => g (WithLp.toLp 2 x) j - gr j) (fun j => s j - y j) + (dot (fun j => -gr j) y - dot (fun j => -gr j) s) := by
      rw [inner_ofLp]
      unfold dot
      rw [← Finset.sum_sub_distrib, ← Finset.sum_add_distrib]
      refine Finset.sum_congr rfl fun j _ => ?_
      show g (WithLp.toLp 2 x) j * (s j - y j) = _
      ring
    have t2 := abs_dot_le (v := fun j => g (WithLp.toLp 2 x) j - gr j) (y := fun j => s j - y j) (a := Kh * w) fun j => by rw [abs_sub_comm]; exact hgd j
    have t3 : norm1 (fun j => s j - y j) ≤ 2 * alpha := (norm1_sub_le s y).trans (by linarith)
    have t4 := mul_le_mul_of_nonneg_left t3 (show 0 ≤ Kh * w by positivity)
    rw [t1, ← hKh]
    linarith only [le_abs_self (dot (fun j => g (WithLp.toLp 2 x) j - gr j) (fun j => s j - y j)), t2, t4, hm]
  · by_contra hQ
    have hz : ∀ j, D j = 0 := by
      have hQ0 : dot D D = 0 := le_antisymm (not_lt.mp hQ) (Finset.sum_nonneg fun j _ => mul_self_nonneg _)
      intro j
      have := (Finset.sum_eq_zero_iff_of_nonneg fun j _ => mul_self_nonneg (D j)).mp hQ0 j (Finset.mem_univ j)
      exact mul_self_eq_zero.mp this
    simp only [hz, zero_mul, abs_zero, Finset.sum_const_zero, mul_zero, sub_zero] at e1
    linarith [abs_nonpos_iff.mp e1]

/-- The point tried with step `s`. -/
theorem fws_point (h : FwsSmall k0 rd u w) (ha : 0 < alpha) (hL : 0 ≤ L) (hK : 0 ≤ K) (hG : LipGrad g L) (hq : UpperQuad f g L) {x gr : Fin d → ℝ} (hx : norm1 x ≤ 1.05 * alpha)
    (hgr : ∀ j, |gr j - g (WithLp.toLp 2 x) j| ≤ K * w * (1 + norm2 x)) {cert : ℝ} (hcert : FlDot rd (List.ofFn fun j => (flL1Lmo rd alpha (fun j => -gr j) x j, -gr j)) cert) {s : ℝ} (hs0 : 0 ≤ s)
    (hs1 : s ≤ 1) {D y : Fin d → ℝ} (hD : D = flL1Lmo rd alpha (fun j => -gr j) x) (hy : y = flFbPoint rd x D s) :
    norm1 y ≤ max (norm1 x) alpha + 2 * (k0.c * w) ∧ norm1 y ≤ 2 * alpha ∧ f (WithLp.toLp 2 y) ≤ f (WithLp.toLp 2 x) + btModel cert (dot D D) L s + k0.e1 * w ∧
      ‖(WithLp.toLp 2 y : EuclideanSpace ℝ (Fin d)) - WithLp.toLp 2 x - s • WithLp.toLp 2 D‖ ≤ k0.c2 * w ∧ cert ≤ k0.Gm * ‖(WithLp.toLp 2 D : EuclideanSpace ℝ (Fin d))‖ + (k0.K3 + k0.Gm * (3 * alpha + 1)) * w := by
  have hw0 := h.w_nonneg
  have hw8 := h.w_le
  obtain ⟨hd, d1, d2, d3, -, -⟩ := fws_direction h ha hL hK hG hx hgr hcert
  obtain ⟨hG0, -, -, hK3⟩ := k0.toFwConst.pos hL ha hK
  have hc0 := k0.toFwConst.c_nonneg ha.le
  rw [← hD] at d1 d2
  obtain ⟨v, hv⟩ : ∃ v, v = l1Vertex alpha fun j => -gr j := ⟨_, rfl⟩
  have hvm : norm1 v ≤ alpha := by rw [hv]; exact l1Vertex_mem ha.le _
  rw [← hv] at d1 d3
  have h0 := flFwNext_error hd h.rnd h.u_le (by linarith) hw0 (⟨fun _ _ => gr, fun _ _ _ => 0, fun _ => s, alpha, x, 0, 0⟩ : FlFWArgs d) ha.le (k := 0) hs0 hs1 x
  have h1 : ∑ j, |y j - (x j + s * (v j - x j))| ≤ 6 * w * (alpha + norm1 x) + 5 * d * w := by
    rw [hy, hv, hD]
    exact h0
  have haw : 0 ≤ alpha * w := by positivity
  have hdw : 0 ≤ d * w := by positivity
  have hcw : k0.c * w = 12 * (alpha * w) + 5 * (d * w) := by rw [k0.c_def]; ring
  have h2 : ∑ j, |y j - (x j + s * (v j - x j))| ≤ 2 * (k0.c * w) := by
    have : w * norm1 x ≤ w * (1.05 * alpha) := mul_le_mul_of_nonneg_left hx hw0
    linarith
  have hy1 : norm1 y ≤ max (norm1 x) alpha + 2 * (k0.c * w) := by
    have t1 : norm1 y ≤ ((1 - s) * norm1 x + s * norm1 v) + ∑ j, |y j - (x j + s * (v j - x j))| := by
      unfold norm1
      rw [Finset.mul_sum, Finset.mul_sum, ← Finset.sum_add_distrib, ← Finset.sum_add_distrib]
      refine Finset.sum_le_sum fun j _ => ?_
      calc |y j| = |((1 - s) * x j + s * v j) + (y j - (x j + s * (v j - x j)))| := congrArg _ (by ring)
        _ ≤ |(1 - s) * x j + s * v j| + |y j - (x j + s * (v j - x j))| := abs_add_le _ _
        _ ≤ _ := by
          refine add_le_add_left ((abs_add_le _ _).trans (le_of_eq ?_)) _
          rw [abs_mul, abs_mul, abs_of_nonneg hs0, abs_of_nonneg (by linarith : 0 ≤ 1 - s)]
    have t2 : (1 - s) * norm1 x ≤ (1 - s) * max (norm1 x) alpha := mul_le_mul_of_nonneg_left (le_max_left _ _) (by linarith)
    have t3 : s * norm1 v ≤ s * max (norm1 x) alpha := mul_le_mul_of_nonneg_left (hvm.trans (le_max_right _ _)) hs0
    linarith
  have hy2 : norm1 y ≤ 2 * alpha := by
    have := h.c_le
    have : max (norm1 x) alpha ≤ 1.05 * alpha := max_le hx (by linarith)
    linarith
  refine ⟨hy1, hy2, ?_⟩
  obtain ⟨X, hX⟩ : ∃ X : EuclideanSpace ℝ (Fin d), X = WithLp.toLp 2 x := ⟨_, rfl⟩
  obtain ⟨Y, hY⟩ : ∃ Y : EuclideanSpace ℝ (Fin d), Y = WithLp.toLp 2 y := ⟨_, rfl⟩
  obtain ⟨DD, hDD⟩ : ∃ DD : EuclideanSpace ℝ (Fin d), DD = WithLp.toLp 2 D := ⟨_, rfl⟩
  obtain ⟨V, hV⟩ : ∃ V : EuclideanSpace ℝ (Fin d), V = WithLp.toLp 2 v := ⟨_, rfl⟩
  obtain ⟨e, he⟩ : ∃ e, e = Y - X - s • DD := ⟨_, rfl⟩
  have hen : ‖e‖ ≤ k0.c2 * w := by
    have t1 : ‖e‖ ≤ ∑ j, |y j - (x j + s * D j)| := by
      rw [he, hY, hX, hDD]
      refine (toLp_le_norm1 fun j => y j - (x j + s * D j)).trans' (le_of_eq (congrArg _ ?_))
      ext j
      simp only [PiLp.sub_apply, PiLp.smul_apply, smul_eq_mul]
      ring
    have t2 : ∑ j, |y j - (x j + s * D j)| ≤ ∑ j, |y j - (x j + s * (v j - x j))| + ∑ j, |D j - (v j - x j)| := by
      rw [← Finset.sum_add_distrib]
      refine Finset.sum_le_sum fun j _ => ?_
      calc |y j - (x j + s * D j)| = |(y j - (x j + s * (v j - x j))) - s * (D j - (v j - x j))| := congrArg _ (by ring)
        _ ≤ |y j - (x j + s * (v j - x j))| + |s * (D j - (v j - x j))| := abs_sub _ _
        _ ≤ _ := by
          rw [abs_mul, abs_of_nonneg hs0]
          linarith [mul_le_of_le_one_left (abs_nonneg (D j - (v j - x j))) hs1]
    rw [k0.c2_def]
    linarith
  have hc20 : 0 ≤ k0.c2 * w := (norm_nonneg _).trans hen
  have hDn : ‖DD‖ ≤ 3 * alpha := by rw [hDD]; linarith [toLp_le_norm1 D]
  have hQ : ‖DD‖ ^ 2 = dot D D := by rw [hDD, norm_sq_ofLp]
  have hgn : ‖g X‖ ≤ k0.Gm := by rw [hX]; exact grad_near k0.toFwConst hG hL (by linarith)
  rw [← hX, ← hV] at d3
  have hDV : ‖DD - (V - X)‖ ≤ (3 * alpha + 1) * w := by
    refine le_trans ?_ d1
    rw [hDD, hV, hX]
    exact toLp_le_norm1 fun j => D j - (v j - x j)
  have i1 : ⟪g X, DD⟫_ℝ ≤ -cert + (k0.K3 + k0.Gm * (3 * alpha + 1)) * w := by
    have t1 : ⟪g X, DD⟫_ℝ = ⟪g X, DD - (V - X)⟫_ℝ - ⟪g X, X - V⟫_ℝ := by rw [← inner_sub_right]; congr 1; abel
    have t2 := (real_inner_le_norm (g X) (DD - (V - X))).trans (mul_le_mul hgn hDV (norm_nonneg _) hG0)
    have t3 := (abs_le.mp d3).2
    rw [t1]
    linarith only [t2, t3]
  have i2 : ⟪g X, e⟫_ℝ ≤ k0.Gm * (k0.c2 * w) := (real_inner_le_norm _ _).trans (mul_le_mul hgn hen (norm_nonneg _) hG0)
  have hYX : Y - X = s • DD + e := by rw [he]; abel
  have i3 : ‖Y - X‖ ^ 2 ≤ s ^ 2 * dot D D + (6 * alpha + 1) * (k0.c2 * w) := by
    rw [hYX, norm_add_sq_real, norm_smul, mul_pow, Real.norm_eq_abs, sq_abs, hQ, real_inner_smul_left]
    have t1 : ⟪DD, e⟫_ℝ ≤ 3 * alpha * (k0.c2 * w) := (real_inner_le_norm _ _).trans (mul_le_mul hDn hen (norm_nonneg _) (by linarith))
    have t2 : s * ⟪DD, e⟫_ℝ ≤ 3 * alpha * (k0.c2 * w) :=
      (mul_le_mul_of_nonneg_left t1 hs0).trans (mul_le_of_le_one_left (by positivity) hs1)
    have t3 : ‖e‖ ^ 2 ≤ 1 * (k0.c2 * w) := by
      rw [sq]
      exact mul_le_mul (hen.trans h.c2_le) hen (norm_nonneg _) (by norm_num)
    linarith only [t2, t3]
  have q1 := hq X Y
  rw [hYX, inner_add_right, real_inner_smul_right, ← hYX] at q1
  have i4 := mul_le_mul_of_nonneg_left i3 (show 0 ≤ L / 2 by linarith)
  have i5 : s * ⟪g X, DD⟫_ℝ ≤ s * -cert + (k0.K3 + k0.Gm * (3 * alpha + 1)) * w := by
    have t := mul_le_mul_of_nonneg_left i1 hs0
    have t2 : s * ((k0.K3 + k0.Gm * (3 * alpha + 1)) * w) ≤ (k0.K3 + k0.Gm * (3 * alpha + 1)) * w := mul_le_of_le_one_left (by positivity) hs1
    linarith only [t, t2]
  have i6 : cert ≤ k0.Gm * ‖DD‖ + (k0.K3 + k0.Gm * (3 * alpha + 1)) * w := by
    have t1 := abs_le.mp ((abs_real_inner_le_norm (g X) DD).trans (mul_le_mul_of_nonneg_right hgn (norm_nonneg DD)))
    linarith only [i1, t1.1]
  rw [← hX, ← hY, ← hDD]
  refine ⟨?_, by rw [← he]; exact hen, i6⟩
  rw [k0.e1_def]
  unfold btModel
  linarith only [q1, i2, i4, i5]

theorem FwsConst.pos (hL : 0 ≤ L) (ha : 0 < alpha) (hK : 0 ≤ K) : 0 ≤ k0.e1 ∧ 0 ≤ k0.e2 ∧ 1 ≤ k0.cm ∧ 0 ≤ k0.tot := by
  obtain ⟨hG0, -, -, hK3⟩ := k0.toFwConst.pos hL ha hK
  have hc0 := k0.toFwConst.c_nonneg ha.le
  have hc2 : 0 ≤ k0.c2 := by rw [k0.c2_def]; positivity
  have h1 : 0 ≤ k0.e1 := by rw [k0.e1_def]; positivity
  have h2 : 0 ≤ k0.e2 := by rw [k0.e2_def]; positivity
  have h3 : 1 ≤ k0.cm := by
    have : 0 ≤ k0.Gm * (3 * alpha) := by positivity
    rw [k0.cm_def]; linarith
  refine ⟨h1, h2, h3, ?_⟩
  have : 0 ≤ (13 * (8 * d + 8) + 8) * k0.cm := by positivity
  rw [k0.tot_def]; linarith

/-- The oracles: values, gradients, dot products and norms are computed to precision `w`. -/
structure FwsOracles (f : EuclideanSpace ℝ (Fin d) → ℝ) (g : EuclideanSpace ℝ (Fin d) → EuclideanSpace ℝ (Fin d)) (alpha K : ℝ) (rd : ℝ → ℝ) (w : ℝ) (P : FlFWSArgs d) : Prop where
  value : ∀ k i x, |P.value k i x - f (WithLp.toLp 2 x)| ≤ K * w * (1 + norm2 x) ^ 2
  grad : ∀ k i x j, |P.grad k i x j - g (WithLp.toLp 2 x) j| ≤ K * w * (1 + norm2 x)
  inner : ∀ k v y, FlDot rd (List.ofFn fun j => (v j, y j)) (P.dot k v y)
  norm : ∀ k i v, FlNorm rd v (P.norm k i v)
  alpha_eq : P.alpha = alpha

/-- What is known of a state: the iterate is near the ball, its value and gradient are accurate. -/
structure FwsState (f : EuclideanSpace ℝ (Fin d) → ℝ) (g : EuclideanSpace ℝ (Fin d) → EuclideanSpace ℝ (Fin d)) (K w : ℝ) (st : FlFWSState d) : Prop where
  value : |st.fT - f (WithLp.toLp 2 st.x)| ≤ K * w * (1 + norm2 st.x) ^ 2
  grad : ∀ j, |st.grad j - g (WithLp.toLp 2 st.x) j| ≤ K * w * (1 + norm2 st.x)

theorem value_near_ball (hK : 0 ≤ K) (ha : 0 < alpha) (hw0 : 0 ≤ w) {x : Fin d → ℝ} {v : ℝ} (hx : norm1 x ≤ 2 * alpha) (h : |v - f (WithLp.toLp 2 x)| ≤ K * w * (1 + norm2 x) ^ 2) :
    |v - f (WithLp.toLp 2 x)| ≤ k0.e2 * w := by
  have h1 := toLp_le_norm1 x
  rw [toLp_norm] at h1
  have h2 : (1 + norm2 x) ^ 2 ≤ (1 + 2 * alpha) ^ 2 := pow_le_pow_left₀ (by linarith [norm2_nonneg' x]) (by linarith) 2
  have h3 := mul_le_mul_of_nonneg_left h2 (show 0 ≤ K * w by positivity)
  rw [k0.e2_def]
  linarith

set_option maxHeartbeats 1000000 in
/-- One iteration. -/
theorem fws_iteration (h : FwsSmall k0 rd u w) (ha : 0 < alpha) (hL : 0 ≤ L) (hK : 0 ≤ K) (hG : LipGrad g L) (hq : UpperQuad f g L) {P : FlFWSArgs d} (hP : FwsOracles f g alpha K rd w P)
    {st : FlFWSState d} (hst : FwsState f g K w st) (hx : norm1 st.x ≤ 1.05 * alpha) (k : ℕ) (hc : 0 < flFwsCert rd P k st) (hl : 0 < flFwsLip rd P k st)
    (hls : L ≤ (199 / 100) ^ 99 * (89 / 100 * flFwsLip rd P k st)) :
    FwsState f g K w (flFwsNext rd P k st) ∧ (flFwsNext rd P k st).warned = st.warned ∧ norm1 (flFwsNext rd P k st).x ≤ max (norm1 st.x) alpha + 2 * (k0.c * w) ∧
      ∃ l Q, (flFwsNext rd P k st).lip = some l ∧ 0 < Q ∧ Q ≤ 4.3 * alpha ^ 2 ∧ 89 / 100 * flFwsLip rd P k st ≤ l ∧ l ≤ max (flFwsLip rd P k st) (201 / 100 * L) ∧
        (f (WithLp.toLp 2 (flFwsNext rd P k st).x) ≤ f (WithLp.toLp 2 st.x) - flFwsCert rd P k st / 2 + 2 * fwEPS ∨
          f (WithLp.toLp 2 (flFwsNext rd P k st).x) ≤ f (WithLp.toLp 2 st.x) - flFwsCert rd P k st ^ 2 / (2 * (l * Q)) + 2 * fwEPS ∧ 99 / 100 * flFwsCert rd P k st ≤ l * Q) := by
  have hw0 := h.w_nonneg
  have hw8 := h.w_le
  have hd0 : (0 : ℝ) ≤ d := Nat.cast_nonneg d
  have hdw : 0 ≤ (d : ℝ) * w := by positivity
  have hdl := h.d_le
  obtain ⟨he1, he2, hcm, -⟩ := FwsConst.pos (k0 := k0) hL ha hK
  have hu3 : u ≤ 1 / 1000 := h.u_le.trans (by linarith)
  obtain ⟨D, hD⟩ : ∃ D, D = flL1Lmo rd alpha (fun j => -st.grad j) st.x := ⟨_, rfl⟩
  have hDd : flFwsDir rd P st = D := by rw [hD, flFwsDir, hP.alpha_eq]
  obtain ⟨c, hce⟩ : ∃ c, c = flFwsCert rd P k st := ⟨_, rfl⟩
  obtain ⟨N, hNe⟩ : ∃ N, N = flFwsNorm rd P k st := ⟨_, rfl⟩
  obtain ⟨l0, hl0⟩ : ∃ l0, l0 = flFwsLip rd P k st := ⟨_, rfl⟩
  have hcert : FlDot rd (List.ofFn fun j => (flL1Lmo rd alpha (fun j => -st.grad j) st.x j, -st.grad j)) c := by
    have := hP.inner k (flFwsDir rd P st) fun j => -st.grad j
    rw [hDd, hD] at this
    rw [hce, flFwsCert, hDd, hD]
    exact this
  obtain ⟨-, -, d2, d3, -, d5⟩ := fws_direction h ha hL hK hG hx hst.grad hcert
  rw [← hce] at hc
  rw [← hl0] at hl hls
  have hQ0 := d5 hc
  rw [← hD] at d2 hQ0
  obtain ⟨Q, hQ⟩ : ∃ Q, Q = dot D D := ⟨_, rfl⟩
  have hQ4 : Q ≤ 4.3 * alpha ^ 2 := by
    have t1 := toLp_le_norm1 D
    have t2 : ‖(WithLp.toLp 2 D : EuclideanSpace ℝ (Fin d))‖ ^ 2 ≤ (2.06 * alpha) ^ 2 := pow_le_pow_left₀ (norm_nonneg _) (t1.trans d2) 2
    rw [norm_sq_ofLp] at t2
    rw [hQ]
    have : 0 ≤ alpha ^ 2 := sq_nonneg _
    linarith
  obtain ⟨b, hb⟩ : ∃ b, b = (8 * d + 8) * w := ⟨_, rfl⟩
  have hb3 : b ≤ 1 / 1000 := by rw [hb]; linarith
  have hwb : w ≤ b := by rw [hb]; linarith
  have hb0 : 0 ≤ b := hw0.trans hwb
  have hNn : (1 - b) * Q ≤ N ∧ N ≤ (1 + b) * Q := by
    have := flNormSq_error h.rnd h.u_le (d := d) (by linarith) (by linarith) (hP.norm k 0 D)
    rw [← hb, ← hQ] at this
    rw [hNe, flFwsNorm, hDd]
    exact this
  rw [← hQ] at hQ0
  have hccm : c ≤ k0.cm := by
    have t1 : ⟪g (WithLp.toLp 2 st.x), WithLp.toLp 2 st.x - WithLp.toLp 2 (l1Vertex alpha fun j => -st.grad j)⟫_ℝ ≤ k0.Gm * (3 * alpha) := by
      refine (real_inner_le_norm _ _).trans (mul_le_mul (grad_near k0.toFwConst hG hL (by linarith)) ?_ (norm_nonneg _) (k0.toFwConst.pos hL ha hK).1)
      refine (toLp_sub_norm_le _ _).trans ((norm1_sub_le _ _).trans ?_)
      linarith [l1Vertex_mem ha.le fun j => -st.grad j]
    have t2 := (abs_le.mp d3).2
    have t3 := h.K3_le
    rw [k0.cm_def]
    linarith only [t1, t2, t3]
  obtain ⟨fx, hfx⟩ : ∃ fx, fx = f (WithLp.toLp 2 st.x) := ⟨_, rfl⟩
  have hfT : |st.fT - fx| ≤ k0.e2 * w := by rw [hfx]; exact value_near_ball hK ha hw0 (by linarith) hst.value
  have htot := h.tot_le
  have hEcm : (13 * (8 * d + 8) + 8) * k0.cm * w = 13 * (b * k0.cm) + 8 * (w * k0.cm) := by rw [hb]; ring
  have hbc : b * c ≤ b * k0.cm := mul_le_mul_of_nonneg_left hccm hb0
  have hwc : w * c ≤ w * k0.cm := mul_le_mul_of_nonneg_left hccm hw0
  have hbc0 : 0 ≤ b * c := by positivity
  have hwc0 : 0 ≤ w * c := by positivity
  have htot' : k0.e1 * w + 2 * (k0.e2 * w) + 13 * (b * c) + 8 * (w * c) + 4 * w ≤ fwEPS := by
    have : k0.tot * w = k0.e1 * w + 2 * (k0.e2 * w) + (13 * (8 * d + 8) + 8) * k0.cm * w + 4 * w := by rw [k0.tot_def]; ring
    linarith
  have he1w : 0 ≤ k0.e1 * w := by positivity
  have he2w : 0 ≤ k0.e2 * w := by positivity
  have hE0 : 0 ≤ fwEPS := by unfold fwEPS; positivity
  have hE1 : fwEPS ≤ 1 / 2 := by
    unfold fwEPS
    calc (2⁻¹ : ℝ) ^ 23 ≤ 2⁻¹ ^ 1 := pow_le_pow_of_le_one (by norm_num) (by norm_num) (by norm_num)
      _ = 1 / 2 := by norm_num
  -- a trial
  have trial : ∀ lip, 0 < lip → ∃ s, s = flFbStep rd c N lip 1 ∧ 0 < s ∧ s ≤ 1 ∧ |flFbRhs rd c N lip 1 - btModel c Q lip s| ≤ 8 * b * c ∧
      (btModel c Q lip s ≤ -(c / 2) + 5 * b * c ∨ btModel c Q lip s ≤ -(c ^ 2 / (2 * (lip * Q))) + 5 * b * c ∧ 99 / 100 * c ≤ lip * Q) ∧
      norm1 (flFbPoint rd st.x D s) ≤ max (norm1 st.x) alpha + 2 * (k0.c * w) ∧
      f (WithLp.toLp 2 (flFbPoint rd st.x D s)) ≤ fx + btModel c Q L s + k0.e1 * w ∧
      ∀ i, |P.value (k + 1) i (flFbPoint rd st.x D s) - f (WithLp.toLp 2 (flFbPoint rd st.x D s))| ≤ k0.e2 * w := by
    intro lip hlip
    obtain ⟨t1, t2, t3, t4⟩ := flFb_trial h.rnd h.rd_one h.u_le hwb hb3 hc hQ0 hlip hNn.1 hNn.2
    obtain ⟨p1, p2, p3, -, -⟩ := fws_point h ha hL hK hG hq hx hst.grad hcert t1.le t2 hD rfl
    rw [← hQ, ← hfx] at p3
    exact ⟨_, rfl, t1, t2, t3, t4, p1, p3, fun i => value_near_ball hK ha hw0 p2 (hP.value _ _ _)⟩
  have hacc : ∀ i lip, 0 < lip → L ≤ lip → rd (P.value (k + 1) i (flFbPoint rd st.x D (flFbStep rd c N lip 1)) - st.fT) ≤ rd (flFbRhs rd c N lip 1 + fwEPS) := by
    intro i lip hlip hLl
    obtain ⟨s, hs, s0, s1, t3, -, -, p3, p4⟩ := trial lip hlip
    rw [← hs]
    refine h.rnd.mono ?_
    have p4 := (abs_le.mp (p4 i)).2
    have hf := (abs_le.mp hfT).1
    have t3 := (abs_le.mp t3).1
    have hm : btModel c Q L s ≤ btModel c Q lip s := by
      unfold btModel
      have : 0 ≤ s ^ 2 * Q := by positivity
      have := mul_le_mul_of_nonneg_right hLl this
      linarith
    linarith only [p3, p4, hf, t3, hm, htot', hbc0, hwc0, hw0]
  obtain ⟨hb1, hb2⟩ := flFbInit_bounds h.rnd hu3 hl st.oldF st.fT c N
  obtain ⟨li, hli⟩ : ∃ li, li = flFbInit rd st.oldF st.fT c N l0 := ⟨_, rfl⟩
  rw [← hli] at hb1 hb2
  obtain ⟨j, l, a1, a2, a3, a4⟩ := flFbLoop_spec h.rnd hu3 (P.value (k + 1)) (P.grad (k + 1)) st.x D st.fT c N hacc 99 0 li (by linarith)
    (hls.trans (mul_le_mul_of_nonneg_left hb1 (by positivity)))
  have hsearch : flFwsSearch rd P k st = flFbLoop rd (P.value (k + 1)) (P.grad (k + 1)) st.x D st.fT c N 1 99 0 li := by
    rw [hli, hl0, hNe, hce, ← hDd]; rfl
  have hlpos : 0 < l := by linarith
  obtain ⟨s, hs, s0, s1, t3, t4, p1, p3, p4⟩ := trial l hlpos
  rw [← hs] at a3 a4
  obtain ⟨y, hy⟩ : ∃ y, y = flFbPoint rd st.x D s := ⟨_, rfl⟩
  rw [← hy] at a3 a4 p1 p3 p4
  have hnext : flFwsNext rd P k st = ⟨y, P.value (k + 1) j y, P.grad (k + 1) j y, some st.fT, some l, st.warned⟩ := by
    unfold flFwsNext
    rw [hsearch, a4]
    simp
  rw [hnext, ← hce, ← hl0, ← hfx]
  refine ⟨⟨hP.value _ _ _, hP.grad _ _ _⟩, rfl, p1, l, Q, rfl, hQ0, hQ4, hb1.trans a1, a2.trans (max_le_max hb2 le_rfl), ?_⟩
  have A := rd_le_rd h.rnd h.u_le (by linarith) a3
  have p4 := (abs_le.mp (p4 j)).1
  have hf := (abs_le.mp hfT).2
  have hm1 : -c ≤ btModel c Q l s := by
    unfold btModel
    have : 0 ≤ 1 / 2 * l * s ^ 2 * Q := by positivity
    have := mul_le_of_le_one_left hc.le s1
    linarith
  have hbc3 : b * c ≤ 1 / 1000 * c := mul_le_mul_of_nonneg_right hb3 hc.le
  have hm2 : btModel c Q l s ≤ 5 * b * c := by
    rcases t4 with t4 | t4
    · linarith
    · have : 0 ≤ c ^ 2 / (2 * (l * Q)) := by positivity
      linarith [t4.1]
  have hB : |flFbRhs rd c N l 1 + fwEPS| ≤ 2 * c + 1 := by
    have t3 := abs_le.mp t3
    rw [abs_le]
    constructor <;> linarith [t3.1, t3.2]
  have hB' := mul_le_mul_of_nonneg_left hB (show 0 ≤ 4 * w by linarith)
  have t3 := (abs_le.mp t3).2
  rcases t4 with t4 | ⟨t4, t5⟩
  · left
    show f (WithLp.toLp 2 y) ≤ _
    linarith only [A, p4, hf, t3, t4, hB', htot', hbc0, hwc0, hw0, he1w]
  · right
    refine ⟨?_, t5⟩
    show f (WithLp.toLp 2 y) ≤ _
    linarith only [A, p4, hf, t3, t4, hB', htot', hbc0, hwc0, hw0, he1w]

/-- The states. -/
noncomputable def flFwsIter (rd : ℝ → ℝ) (P : FlFWSArgs d) : ℕ → FlFWSState d
  | 0 => flFwsStart P
  | k + 1 => flFwsNext rd P k (flFwsIter rd P k)

/-- The loop stops at the first certificate below the tolerance, or after the last iteration. -/
theorem flFwsLoop_spec (rd : ℝ → ℝ) (P : FlFWSArgs d) : ∀ m it, ∃ k, it ≤ k ∧ k ≤ it + m ∧ (∀ i, it ≤ i → i < k → P.tol < flFwsCert rd P i (flFwsIter rd P i)) ∧
    (flFwsCert rd P k (flFwsIter rd P k) ≤ P.tol ∧ flFwsLoop rd P m it (flFwsIter rd P it) = ⟨(flFwsIter rd P k).x, flFwsCert rd P k (flFwsIter rd P k), k, (flFwsIter rd P k).warned⟩ ∨
      P.tol < flFwsCert rd P k (flFwsIter rd P k) ∧ k = it + m ∧
        flFwsLoop rd P m it (flFwsIter rd P it) = ⟨(flFwsIter rd P (k + 1)).x, flFwsCert rd P k (flFwsIter rd P k), k, (flFwsIter rd P (k + 1)).warned⟩) := by
  intro m
  induction m with
  | zero =>
    intro it
    refine ⟨it, le_rfl, le_rfl, fun i h1 h2 => absurd h1 (not_le.mpr h2), ?_⟩
    rw [flFwsLoop]
    by_cases h : flFwsCert rd P it (flFwsIter rd P it) ≤ P.tol
    · exact Or.inl ⟨h, by rw [if_pos h]⟩
    · exact Or.inr ⟨not_le.mp h, rfl, by rw [if_neg h]; rfl⟩
  | succ m ih =>
    intro it
    by_cases h : flFwsCert rd P it (flFwsIter rd P it) ≤ P.tol
    · refine ⟨it, le_rfl, by omega, fun i h1 h2 => absurd h1 (not_le.mpr h2), Or.inl ⟨h, ?_⟩⟩
      rw [flFwsLoop, if_pos h]
    · obtain ⟨k, h1, h2, h3, h4⟩ := ih (it + 1)
      have e : flFwsLoop rd P (m + 1) it (flFwsIter rd P it) = flFwsLoop rd P m (it + 1) (flFwsIter rd P (it + 1)) := by
        rw [flFwsLoop, if_neg h]; rfl
      refine ⟨k, by omega, by omega, fun i hi1 hi2 => ?_, ?_⟩
      · rcases Nat.eq_or_lt_of_le hi1 with rfl | hi
        · exact not_le.mp h
        · exact h3 i hi hi2
      · rw [e]
        rcases h4 with h4 | ⟨a, b, c⟩
        · exact Or.inl h4
        · exact Or.inr ⟨a, by omega, c⟩

/-- The run before the first certificate below the tolerance. -/
theorem fws_run (h : FwsSmall k0 rd u w) (ha : 0 < alpha) (hL : 0 ≤ L) (hK : 0 ≤ K) (hG : LipGrad g L) (hq : UpperQuad f g L) {P : FlFWSArgs d} (hP : FwsOracles f g alpha K rd w P)
    (hx0 : norm1 P.x0 ≤ alpha) (htol : 0 < P.tol) {l0 M flow df de : ℝ} (hl0 : 0 < l0) (hl0a : 5 * alpha ^ 2 * l0 ≤ P.tol)
    (hfirst : P.tol < flFwsCert rd P 0 (flFwsStart P) → l0 ≤ flFwsLip rd P 0 (flFwsStart P) ∧ flFwsLip rd P 0 (flFwsStart P) ≤ M) (hLM : 201 / 100 * L ≤ M) (hM : 0 < M)
    (hlow : ∀ x : Fin d → ℝ, norm1 x ≤ 1.05 * alpha → flow ≤ f (WithLp.toLp 2 x)) (hdf : df = P.tol / 2 - 2 * fwEPS) (hde : de = min (P.tol / 2) (P.tol ^ 2 / (9 * M * alpha ^ 2)) - 2 * fwEPS)
    (hde0 : 0 < de) {N1 : ℕ} (hN1 : f (WithLp.toLp 2 P.x0) - flow < N1 * df) (hls : L ≤ (199 / 100) ^ 99 * ((89 / 100) ^ N1 * l0)) :
    ∀ k : ℕ, 40 * k0.c * k * w ≤ alpha → (∀ i < k, P.tol < flFwsCert rd P i (flFwsIter rd P i)) →
      FwsState f g K w (flFwsIter rd P k) ∧ (flFwsIter rd P k).warned = false ∧ norm1 (flFwsIter rd P k).x ≤ alpha + k * (2 * (k0.c * w)) ∧
      f (WithLp.toLp 2 (flFwsIter rd P k).x) ≤ f (WithLp.toLp 2 P.x0) - k * de ∧
      ∃ nf : ℕ, f (WithLp.toLp 2 (flFwsIter rd P k).x) ≤ f (WithLp.toLp 2 P.x0) - nf * df ∧
        (P.tol < flFwsCert rd P k (flFwsIter rd P k) → (89 / 100) ^ nf * l0 ≤ flFwsLip rd P k (flFwsIter rd P k) ∧ flFwsLip rd P k (flFwsIter rd P k) ≤ M) := by
  have hw0 := h.w_nonneg
  have hc0 := k0.toFwConst.c_nonneg ha.le
  have hcw : 0 ≤ k0.c * w := by positivity
  have hdf0 : 0 < df := by
    have := min_le_left (P.tol / 2) (P.tol ^ 2 / (9 * M * alpha ^ 2))
    linarith
  have hdd : de ≤ df := by
    have := min_le_left (P.tol / 2) (P.tol ^ 2 / (9 * M * alpha ^ 2))
    linarith
  intro k
  induction k with
  | zero =>
    intro _ _
    refine ⟨⟨hP.value _ _ _, hP.grad _ _ _⟩, rfl, ?_, ?_, 0, ?_, fun hc => ?_⟩
    · rw [Nat.cast_zero, zero_mul, add_zero]; exact hx0
    · rw [Nat.cast_zero, zero_mul, sub_zero]; exact le_rfl
    · rw [Nat.cast_zero, zero_mul, sub_zero]; exact le_rfl
    · rw [pow_zero, one_mul]; exact hfirst hc
  | succ k ih =>
    intro hk hcs
    push_cast at hk
    have hkw : 0 ≤ k0.c * k * w := by positivity
    obtain ⟨i1, i2, i3, i4, nf, i5, i6⟩ := ih (by linarith) fun i hi => hcs i (by omega)
    have hc := hcs k (by omega)
    obtain ⟨i6, i7⟩ := i6 hc
    obtain ⟨st, hst⟩ : ∃ st, st = flFwsIter rd P k := ⟨_, rfl⟩
    have hnext : flFwsIter rd P (k + 1) = flFwsNext rd P k st := by rw [hst]; rfl
    rw [← hst] at i1 i2 i3 i4 i5 i6 i7 hc
    rw [hnext]
    have hx : norm1 st.x ≤ 1.05 * alpha := by linarith
    have hnf : nf + 1 ≤ N1 := by
      have t1 := hlow _ hx
      have t2 : (nf : ℝ) * df < N1 * df := by linarith
      have := lt_of_mul_lt_mul_right t2 hdf0.le
      exact_mod_cast this
    have hlp : 0 < flFwsLip rd P k st := lt_of_lt_of_le (by positivity) i6
    have hpow : (89 / 100 : ℝ) ^ N1 * l0 ≤ (89 / 100) ^ (nf + 1) * l0 := mul_le_mul_of_nonneg_right (pow_le_pow_of_le_one (by norm_num) (by norm_num) hnf) hl0.le
    have hsucc : (89 / 100 : ℝ) ^ (nf + 1) * l0 ≤ 89 / 100 * flFwsLip rd P k st := by
      rw [pow_succ]; linarith
    obtain ⟨r1, r2, r3, l, Q, r4, hQ0, hQ4, r5, r6, r7⟩ := fws_iteration h ha hL hK hG hq hP i1 hx k (htol.trans hc) hlp
      (hls.trans (mul_le_mul_of_nonneg_left (hpow.trans hsucc) (by positivity)))
    obtain ⟨c, hce⟩ : ∃ c, c = flFwsCert rd P k st := ⟨_, rfl⟩
    rw [← hce] at r7 hc
    have hlM : l ≤ M := r6.trans (max_le i7 hLM)
    have hl : 0 < l := by linarith
    have hlip : ∀ st', flFwsNext rd P k st = st' → flFwsLip rd P (k + 1) st' = l := by
      rintro st' rfl
      unfold flFwsLip
      rw [r4]
    refine ⟨r1, by rw [r2, i2], ?_, ?_⟩
    · have : max (norm1 st.x) alpha ≤ alpha + k * (2 * (k0.c * w)) := max_le i3 (le_add_of_nonneg_right (by positivity))
      push_cast
      linarith
    have full : f (WithLp.toLp 2 (flFwsNext rd P k st).x) ≤ f (WithLp.toLp 2 st.x) - df ∨
        f (WithLp.toLp 2 (flFwsNext rd P k st).x) ≤ f (WithLp.toLp 2 st.x) - de ∧ l0 ≤ l := by
      rcases r7 with r7 | ⟨r7, r8⟩
      · left; linarith
      · right
        have ha2 : 0 < alpha ^ 2 := by positivity
        constructor
        · have t1 : l * Q ≤ M * (4.3 * alpha ^ 2) := mul_le_mul hlM hQ4 hQ0.le hM.le
          have t2 : P.tol ^ 2 / (9 * M * alpha ^ 2) ≤ c ^ 2 / (2 * (l * Q)) := by
            refine div_le_div₀ (sq_nonneg c) (pow_le_pow_left₀ htol.le hc.le 2) (by positivity) ?_
            have : 0 < M * alpha ^ 2 := by positivity
            linarith
          have t3 := min_le_right (P.tol / 2) (P.tol ^ 2 / (9 * M * alpha ^ 2))
          linarith
        · have t1 : l * Q ≤ l * (4.3 * alpha ^ 2) := mul_le_mul_of_nonneg_left hQ4 hl.le
          have t2 : 4.3 * alpha ^ 2 * l0 ≤ 4.3 * alpha ^ 2 * l := by linarith
          exact le_of_mul_le_mul_left t2 (by positivity)
    rcases full with r8 | ⟨r8, r9⟩
    · refine ⟨by push_cast; linarith, nf + 1, by push_cast; linarith, fun _ => ?_⟩
      rw [hlip _ rfl]
      exact ⟨by linarith, hlM⟩
    · refine ⟨by push_cast; linarith, nf, by linarith, fun _ => ?_⟩
      rw [hlip _ rfl]
      exact ⟨(mul_le_of_le_one_left hl0.le (pow_le_one₀ (by norm_num) (by norm_num))).trans r9, hlM⟩

end

theorem exists_fwsConst (f : EuclideanSpace ℝ (Fin d) → ℝ) (g : EuclideanSpace ℝ (Fin d) → EuclideanSpace ℝ (Fin d)) (L alpha K : ℝ) : Nonempty (FwsConst f g L alpha K) := by
  obtain ⟨k⟩ := exists_fwConst f g L alpha K
  exact ⟨⟨k, _, _, _, _, _, rfl, rfl, rfl, rfl, rfl⟩⟩

/-- What a run guarantees: the result is near the ball, its value is not larger than at the start, no line search warned; a certificate below the tolerance bounds the distance to the minimum and was
reached after at most `(f x0 - flow) / de` iterations; otherwise all iterations were used, each of which decreased the objective by `de`; with enough iterations the tolerance is reached. -/
structure FwsGuarantee (f : EuclideanSpace ℝ (Fin d) → ℝ) (alpha flow de C w : ℝ) (P : FlFWSArgs d) (r : FlFWSResult d) : Prop where
  near : norm1 r.x ≤ alpha + C * (r.nit + 1) * w
  quiet : r.warned = false
  decrease : f (WithLp.toLp 2 r.x) ≤ f (WithLp.toLp 2 P.x0)
  nit_lt : r.nit < P.maxIter
  steps : r.nit * de ≤ f (WithLp.toLp 2 P.x0) - flow
  certified : r.certificate ≤ P.tol → ∀ y : Fin d → ℝ, norm1 y ≤ alpha → f (WithLp.toLp 2 r.x) - f (WithLp.toLp 2 y) ≤ r.certificate + C * w
  exhausted : P.tol < r.certificate → r.nit + 1 = P.maxIter ∧ f (WithLp.toLp 2 r.x) ≤ f (WithLp.toLp 2 P.x0) - P.maxIter * de
  reached : f (WithLp.toLp 2 P.x0) - flow < P.maxIter * de → r.certificate ≤ P.tol

section
variable {k0 : FwsConst f g L alpha K}

/-- The guarantee, for a run whose first estimate is between `l0` and `M`. -/
theorem fws_guarantee (h : FwsSmall k0 rd u w) (ha : 0 < alpha) (hL : 0 ≤ L) (hK : 0 ≤ K) (hcv : ConvexGrad f g) (hG : LipGrad g L) (hq : UpperQuad f g L) {P : FlFWSArgs d}
    (hP : FwsOracles f g alpha K rd w P) (hx0 : norm1 P.x0 ≤ alpha) (htol : 0 < P.tol) (hm : 1 ≤ P.maxIter) (hmw : 40 * k0.c * P.maxIter * w ≤ alpha) {l0 M flow df de C : ℝ} (hl0 : 0 < l0)
    (hl0a : 5 * alpha ^ 2 * l0 ≤ P.tol)
    (hfirst : P.tol < flFwsCert rd P 0 (flFwsStart P) → l0 ≤ flFwsLip rd P 0 (flFwsStart P) ∧ flFwsLip rd P 0 (flFwsStart P) ≤ M) (hLM : 201 / 100 * L ≤ M) (hM : 0 < M)
    (hlow : ∀ x : Fin d → ℝ, norm1 x ≤ 1.05 * alpha → flow ≤ f (WithLp.toLp 2 x)) (hdf : df = P.tol / 2 - 2 * fwEPS) (hde : de = min (P.tol / 2) (P.tol ^ 2 / (9 * M * alpha ^ 2)) - 2 * fwEPS)
    (hde0 : 0 < de) {N1 : ℕ} (hN1 : f (WithLp.toLp 2 P.x0) - flow < N1 * df) (hls : L ≤ (199 / 100) ^ 99 * ((89 / 100) ^ N1 * l0)) (hC1 : 2 * k0.c ≤ C)
    (hC2 : k0.K3 + 2 * alpha * (K * (1 + 2 * alpha)) ≤ C) : FwsGuarantee f alpha flow de C w P (flMinimizeFWS rd P) := by
  have hw0 := h.w_nonneg
  have hc0 := k0.toFwConst.c_nonneg ha.le
  have hcw : 0 ≤ k0.c * w := by positivity
  have run := fws_run h ha hL hK hG hq hP hx0 htol hl0 hl0a hfirst hLM hM hlow hdf hde hde0 hN1 hls
  obtain ⟨k, -, k1, k2, k3⟩ := flFwsLoop_spec rd P (P.maxIter - 1) 0
  have hk : k + 1 ≤ P.maxIter := by omega
  have hsmall : ∀ i ≤ P.maxIter, 40 * k0.c * i * w ≤ alpha := fun i hi => by
    refine le_trans ?_ hmw
    have : (i : ℝ) ≤ P.maxIter := by exact_mod_cast hi
    have := mul_le_mul_of_nonneg_left this (show 0 ≤ 40 * k0.c * w by positivity)
    linarith
  have hball : ∀ i ≤ P.maxIter, ∀ x : Fin d → ℝ, norm1 x ≤ alpha + i * (2 * (k0.c * w)) → norm1 x ≤ 1.05 * alpha := fun i hi x hx => by
    have := hsmall i hi
    linarith
  have hCw : 2 * (k0.c * w) ≤ C * w := by
    have := mul_le_mul_of_nonneg_right hC1 hw0
    linarith
  have hCk : ∀ i : ℕ, (i : ℝ) * (2 * (k0.c * w)) ≤ i * (C * w) := fun i => mul_le_mul_of_nonneg_left hCw (Nat.cast_nonneg i)
  have hk0 : (0 : ℝ) ≤ k := Nat.cast_nonneg k
  obtain ⟨a1, a2, a3, a4, -⟩ := run k (hsmall k (by omega)) fun i hi => k2 i (by omega) hi
  have hxk := hball k (by omega) _ a3
  have hfl := hlow _ hxk
  have hkde : 0 ≤ k * de := by positivity
  rcases k3 with ⟨k3, k4⟩ | ⟨k3, k4, k5⟩
  · have hres : flMinimizeFWS rd P = ⟨(flFwsIter rd P k).x, flFwsCert rd P k (flFwsIter rd P k), k, (flFwsIter rd P k).warned⟩ := k4
    rw [hres]
    refine ⟨?_, a2, by linarith, by show k < P.maxIter; omega, by show (k : ℝ) * de ≤ _; linarith, fun _ y hy => ?_, fun h' => absurd h' (not_lt.mpr k3), fun _ => k3⟩
    · show norm1 (flFwsIter rd P k).x ≤ alpha + C * (k + 1) * w
      have := hCk k
      linarith
    · show f (WithLp.toLp 2 (flFwsIter rd P k).x) - f (WithLp.toLp 2 y) ≤ flFwsCert rd P k (flFwsIter rd P k) + C * w
      obtain ⟨st, hst⟩ : ∃ st, st = flFwsIter rd P k := ⟨_, rfl⟩
      rw [← hst] at a1 hxk ⊢
      have hcert : FlDot rd (List.ofFn fun j => (flL1Lmo rd alpha (fun j => -st.grad j) st.x j, -st.grad j)) (flFwsCert rd P k st) := by
        have := hP.inner k (flFwsDir rd P st) fun j => -st.grad j
        unfold flFwsCert flFwsDir at *
        rw [hP.alpha_eq] at this ⊢
        exact this
      obtain ⟨-, -, -, d3, d4, -⟩ := fws_direction h ha hL hK hG hxk a1.grad hcert
      have c1 := hcv (WithLp.toLp 2 st.x) (WithLp.toLp 2 y)
      have d4 := d4 y hy
      have d3 := (abs_le.mp d3).1
      obtain ⟨V, hV⟩ : ∃ V : EuclideanSpace ℝ (Fin d), V = WithLp.toLp 2 (l1Vertex alpha fun j => -st.grad j) := ⟨_, rfl⟩
      obtain ⟨X, hX⟩ : ∃ X : EuclideanSpace ℝ (Fin d), X = WithLp.toLp 2 st.x := ⟨_, rfl⟩
      rw [← hV, ← hX] at d3 d4
      rw [← hX] at c1 ⊢
      rw [inner_sub_right] at c1 d3 d4
      have := mul_le_mul_of_nonneg_right hC2 hw0
      linarith only [c1, d3, d4, this]
  · obtain ⟨b1, b2, b3, b4, -⟩ := run (k + 1) (hsmall (k + 1) hk) fun i hi => by
      rcases Nat.lt_succ_iff_lt_or_eq.mp hi with hi | rfl
      · exact k2 i (by omega) hi
      · exact k3
    have hres : flMinimizeFWS rd P = ⟨(flFwsIter rd P (k + 1)).x, flFwsCert rd P k (flFwsIter rd P k), k, (flFwsIter rd P (k + 1)).warned⟩ := k5
    have hxk1 := hball (k + 1) hk _ b3
    have hfl1 := hlow _ hxk1
    have hkm : k + 1 = P.maxIter := by omega
    have hkm' : ((k + 1 : ℕ) : ℝ) = P.maxIter := by rw [hkm]
    rw [hkm'] at b4
    have hmde : 0 ≤ P.maxIter * de := by positivity
    rw [hres]
    refine ⟨?_, b2, by show f (WithLp.toLp 2 (flFwsIter rd P (k + 1)).x) ≤ _; linarith, by show k < P.maxIter; omega, by show (k : ℝ) * de ≤ _; linarith, fun h' => absurd h' (not_le.mpr k3),
      fun _ => ⟨hkm, b4⟩, fun h' => absurd (hfl1.trans b4) (by linarith)⟩
    show norm1 (flFwsIter rd P (k + 1)).x ≤ alpha + C * (k + 1) * w
    have := hCk (k + 1)
    push_cast at this b3
    linarith

/-- The error of the norm of the difference of two computed gradients near the ball. -/
noncomputable def FwsConst.est (k0 : FwsConst f g L alpha K) : ℝ :=
  d * (4 * (K * (1 + 2 * alpha)) + 2 * k0.Gm) + (12 * d + 2) * (1 + 2 * k0.Gm + d * (4 * (K * (1 + 2 * alpha)) + 2 * k0.Gm))

set_option maxHeartbeats 1000000 in
/-- The estimate of the Lipschitz constant by a difference quotient. -/
theorem fws_estimate (h : FwsSmall k0 rd u w) (ha : 0 < alpha) (hL : 0 ≤ L) (hK : 0 ≤ K) (hG : LipGrad g L) (hq : UpperQuad f g L) {P : FlFWSArgs d} (hP : FwsOracles f g alpha K rd w P)
    (hx0 : norm1 P.x0 ≤ alpha) (hlip : P.lipschitz = none) {mu : ℝ} (hmu : 0 < mu)
    (hquot : ∀ Y, Y = WithLp.toLp 2 (flFbPoint rd P.x0 (flL1Lmo rd P.alpha (fun j => -P.grad 0 0 P.x0 j) P.x0) (rd (1 / 1000))) →
      mu * ‖Y - WithLp.toLp 2 P.x0‖ ≤ ‖g Y - g (WithLp.toLp 2 P.x0)‖)
    (htol : 0 < P.tol) (hs1 : 2 * ((k0.K3 + k0.Gm * (3 * alpha + 1)) * w) ≤ P.tol) (hs2 : 10000 * (k0.Gm + 1) * (k0.c2 * w) ≤ P.tol) (hs3 : 10000 * (k0.Gm + 1) * (k0.est * w) ≤ mu * P.tol)
    (hc : P.tol < flFwsCert rd P 0 (flFwsStart P)) : mu / 2 ≤ flFwsLip rd P 0 (flFwsStart P) ∧ flFwsLip rd P 0 (flFwsStart P) ≤ 201 / 100 * L ∧ 0 < L := by
  have hw0 := h.w_nonneg
  have hw8 := h.w_le
  have hd0 : (0 : ℝ) ≤ d := Nat.cast_nonneg d
  have hdl := h.d_le
  have hdw : 0 ≤ (d : ℝ) * w := by positivity
  obtain ⟨hG0, -, -, hK3⟩ := k0.toFwConst.pos hL ha hK
  have hu3 := h.u_le
  obtain ⟨st, hst⟩ : ∃ st, st = flFwsStart P := ⟨_, rfl⟩
  obtain ⟨x, hxe⟩ : ∃ x, x = P.x0 := ⟨_, rfl⟩
  obtain ⟨gr, hgre⟩ : ∃ gr, gr = P.grad 0 0 P.x0 := ⟨_, rfl⟩
  have hsx : st.x = x := by rw [hst, hxe]; rfl
  have hsg : st.grad = gr := by rw [hst, hgre]; rfl
  have hsl : st.lip = none := by rw [hst]; exact hlip
  rw [← hst] at hc ⊢
  obtain ⟨D, hD⟩ : ∃ D, D = flL1Lmo rd alpha (fun j => -gr j) x := ⟨_, rfl⟩
  have hDd : flFwsDir rd P st = D := by rw [hD, flFwsDir, hP.alpha_eq, hsx, hsg]
  obtain ⟨s, hs⟩ : ∃ s, s = rd (1 / 1000) := ⟨_, rfl⟩
  obtain ⟨y, hy⟩ : ∃ y, y = flFbPoint rd x D s := ⟨_, rfl⟩
  obtain ⟨sa, sb⟩ := rel_bounds h.rnd h.u_le (show (0 : ℝ) ≤ 1 / 1000 by norm_num)
  rw [← hs] at sa sb
  have s0 : 0 ≤ s := by linarith
  have s1 : s ≤ 1 := by linarith
  have hgr : ∀ j, |gr j - g (WithLp.toLp 2 x) j| ≤ K * w * (1 + norm2 x) := fun j => by rw [hgre, hxe]; exact hP.grad 0 0 _ j
  have hcert : FlDot rd (List.ofFn fun j => (flL1Lmo rd alpha (fun j => -gr j) x j, -gr j)) (flFwsCert rd P 0 st) := by
    have := hP.inner 0 (flFwsDir rd P st) fun j => -st.grad j
    unfold flFwsCert
    rw [hDd, hsg] at this ⊢
    rw [← hD]
    exact this
  rw [← hxe] at hx0
  obtain ⟨-, p2, -, p4, p5⟩ := fws_point h ha hL hK hG hq (show norm1 x ≤ 1.05 * alpha by linarith) hgr hcert s0 s1 hD hy
  obtain ⟨-, -, -, -, -, d5⟩ := fws_direction h ha hL hK hG (show norm1 x ≤ 1.05 * alpha by linarith) hgr hcert
  have hQ0 := d5 (htol.trans hc)
  rw [← hD] at hQ0
  obtain ⟨X, hX⟩ : ∃ X : EuclideanSpace ℝ (Fin d), X = WithLp.toLp 2 x := ⟨_, rfl⟩
  obtain ⟨Y, hY⟩ : ∃ Y : EuclideanSpace ℝ (Fin d), Y = WithLp.toLp 2 y := ⟨_, rfl⟩
  obtain ⟨nD, hnD⟩ : ∃ nD, nD = ‖(WithLp.toLp 2 D : EuclideanSpace ℝ (Fin d))‖ := ⟨_, rfl⟩
  have hnD0 : 0 ≤ nD := by rw [hnD]; exact norm_nonneg _
  have hQn : nD ^ 2 = dot D D := by rw [hnD, norm_sq_ofLp]
  have hnDp : 0 < nD := by
    rcases hnD0.lt_or_eq with h' | h'
    · exact h'
    · rw [← h'] at hQn; simp at hQn; linarith
  rw [← hX, ← hY] at p4
  rw [← hnD] at p5
  have hmuq : mu * ‖Y - X‖ ≤ ‖g Y - g X‖ := by
    have := hquot Y (by rw [hY, hy, hD, hs, hP.alpha_eq, hxe, hgre])
    rwa [← hxe, ← hX] at this
  -- the direction is not short
  have hGn : P.tol ≤ 2 * ((k0.Gm + 1) * nD) := by
    linarith only [p5, hs1, hc, hnD0]
  have hc2 : k0.c2 * w ≤ 2 / 10000 * nD := by
    have : (k0.Gm + 1) * (10000 * (k0.c2 * w)) ≤ (k0.Gm + 1) * (2 * nD) := by linarith only [hs2, hGn]
    have := le_of_mul_le_mul_left this (by linarith)
    linarith
  have hB : k0.est * w ≤ 2 / 10000 * (mu * nD) := by
    have t := mul_le_mul_of_nonneg_left hGn hmu.le
    have : (k0.Gm + 1) * (10000 * (k0.est * w)) ≤ (k0.Gm + 1) * (2 * (mu * nD)) := by linarith only [hs3, t]
    have := le_of_mul_le_mul_left this (by linarith)
    linarith
  have hmn : 0 < mu * nD := by positivity
  -- the displacement
  have hsD : ‖s • (WithLp.toLp 2 D : EuclideanSpace ℝ (Fin d))‖ = s * nD := by rw [norm_smul, Real.norm_eq_abs, abs_of_nonneg s0, hnD]
  have y1 : s * nD - k0.c2 * w ≤ ‖Y - X‖ := by
    have t := norm_sub_norm_le (s • (WithLp.toLp 2 D : EuclideanSpace ℝ (Fin d))) (s • WithLp.toLp 2 D - (Y - X))
    rw [sub_sub_cancel, norm_sub_rev _ (Y - X), hsD] at t
    linarith only [t, p4]
  have y2 : ‖Y - X‖ ≤ s * nD + k0.c2 * w := by
    have t := norm_add_le (s • (WithLp.toLp 2 D : EuclideanSpace ℝ (Fin d))) (Y - X - s • WithLp.toLp 2 D)
    rw [add_sub_cancel, hsD] at t
    linarith only [t, p4]
  have s3 : 999 / 1000000 * nD ≤ s * nD := mul_le_mul_of_nonneg_right (by linarith) hnD0
  have s4 : s * nD ≤ 1001 / 1000000 * nD := mul_le_mul_of_nonneg_right (by linarith) hnD0
  have y3 : 799 / 1000000 * nD ≤ ‖Y - X‖ := by linarith only [y1, s3, hc2]
  have y4 : ‖Y - X‖ ≤ 1201 / 1000000 * nD := by linarith only [y2, s4, hc2]
  have y0 : 0 < ‖Y - X‖ := by linarith only [y3, hnDp]
  have hT2 : ‖g Y - g X‖ ≤ L * ‖Y - X‖ := hG Y X
  have hmuL : mu ≤ L := le_of_mul_le_mul_right (hmuq.trans hT2) y0
  have T1 : 799 / 1000000 * (mu * nD) ≤ ‖g Y - g X‖ := by
    have := mul_le_mul_of_nonneg_left y3 hmu.le
    linarith only [this, hmuq]
  have T2 : ‖g Y - g X‖ ≤ 1201 / 1000000 * (L * nD) := by
    have := mul_le_mul_of_nonneg_left y4 hL
    linarith only [this, hT2]
  -- the computed numerator
  obtain ⟨ge, hge⟩ : ∃ ge, ge = P.grad 0 1 y := ⟨_, rfl⟩
  obtain ⟨v, hv⟩ : ∃ v : Fin d → ℝ, v = fun j => rd (gr j - ge j) := ⟨_, rfl⟩
  obtain ⟨n1, hn1⟩ : ∃ n1, n1 = P.norm 0 1 v := ⟨_, rfl⟩
  obtain ⟨Kh, hKh⟩ : ∃ Kh, Kh = K * (1 + 2 * alpha) := ⟨_, rfl⟩
  have hKh0 : 0 ≤ Kh := by rw [hKh]; positivity
  have near : ∀ z : Fin d → ℝ, norm1 z ≤ 2 * alpha → K * w * (1 + norm2 z) ≤ Kh * w := fun z hz => by
    have h1 := toLp_le_norm1 z
    rw [toLp_norm] at h1
    have := mul_le_mul_of_nonneg_left (show 1 + norm2 z ≤ 1 + 2 * alpha by linarith) (show 0 ≤ K * w by positivity)
    rw [hKh]; linarith
  have hgd : ∀ j, |gr j - g X j| ≤ Kh * w := fun j => by rw [hX]; exact (hgr j).trans (near x (by linarith))
  have hed : ∀ j, |ge j - g Y j| ≤ Kh * w := fun j => by rw [hY, hge]; exact (hP.grad 0 1 y j).trans (near y p2)
  have gX : ∀ j, |g X j| ≤ k0.Gm := fun j => (abs_le_norm2 _ j).trans (by rw [← norm_ofLp, hX]; exact grad_near k0.toFwConst hG hL (by linarith))
  have gY : ∀ j, |g Y j| ≤ k0.Gm := fun j => (abs_le_norm2 _ j).trans (by rw [← norm_ofLp, hY]; exact grad_near k0.toFwConst hG hL p2)
  have hvj : ∀ j, |v j - (g X j - g Y j)| ≤ (4 * Kh + 2 * k0.Gm) * w := fun j => by
    have t1 := rel_err h.rnd h.u_le (gr j - ge j)
    have a1 := abs_le.mp (hgd j)
    have a2 := abs_le.mp (hed j)
    have a3 := abs_le.mp (gX j)
    have a4 := abs_le.mp (gY j)
    have hKw : Kh * w ≤ Kh * 1 := mul_le_mul_of_nonneg_left (by linarith) hKh0
    have t2 : |gr j - ge j| ≤ 2 * k0.Gm + 2 * Kh := by
      rw [abs_le]; constructor <;> linarith only [a1.1, a1.2, a2.1, a2.2, a3.1, a3.2, a4.1, a4.2, hKw]
    have t3 := mul_le_mul_of_nonneg_left t2 hw0
    have t1 := abs_le.mp t1
    have e : v j = rd (gr j - ge j) := by rw [hv]
    rw [e, abs_le]
    constructor <;> linarith only [a1.1, a1.2, a2.1, a2.2, t1.1, t1.2, t3]
  have hvn : |norm2 v - ‖g Y - g X‖| ≤ d * ((4 * Kh + 2 * k0.Gm) * w) := by
    have t1 : ‖(WithLp.toLp 2 v : EuclideanSpace ℝ (Fin d)) - (g X - g Y)‖ ≤ d * ((4 * Kh + 2 * k0.Gm) * w) := norm_le_of_coord _ hvj
    have t2 := abs_norm_sub_norm_le (WithLp.toLp 2 v : EuclideanSpace ℝ (Fin d)) (g X - g Y)
    rw [toLp_norm, norm_sub_rev (g X)] at t2
    exact t2.trans t1
  have hTG : ‖g Y - g X‖ ≤ 2 * k0.Gm := by
    refine (norm_sub_le _ _).trans ?_
    have t1 : ‖g X‖ ≤ k0.Gm := by rw [hX]; exact grad_near k0.toFwConst hG hL (by linarith)
    have t2 : ‖g Y‖ ≤ k0.Gm := by rw [hY]; exact grad_near k0.toFwConst hG hL p2
    linarith
  have hB1 : 0 ≤ d * (4 * Kh + 2 * k0.Gm) := by positivity
  have hn1e : |n1 - ‖g Y - g X‖| ≤ k0.est * w := by
    have t1 := flNorm_error (⟨h.rnd, h.u_le, by positivity, hw0, by linarith, le_rfl⟩ : Scale rd u 0 w 1) (by linarith) (hP.norm 0 1 v)
    rw [← hn1] at t1
    have t2 := abs_le.mp hvn
    have t4 : d * (4 * Kh + 2 * k0.Gm) * w ≤ d * (4 * Kh + 2 * k0.Gm) * 1 := mul_le_mul_of_nonneg_left (by linarith) hB1
    have t3 : 1 + norm2 v ≤ 1 + 2 * k0.Gm + d * (4 * Kh + 2 * k0.Gm) := by linarith only [t2.2, hTG, t4]
    have t5 := mul_le_mul_of_nonneg_left t3 (show 0 ≤ (12 * (d : ℝ) + 2) * w by positivity)
    have t6 := abs_sub_le n1 (norm2 v) ‖g Y - g X‖
    unfold FwsConst.est
    rw [← hKh]
    linarith only [t1, t5, t6, hvn]
  have hn1e := abs_le.mp hn1e
  have hmLn : mu * nD ≤ L * nD := mul_le_mul_of_nonneg_right hmuL hnD0
  have n3 : 599 / 1000000 * (mu * nD) ≤ n1 := by linarith only [hn1e.1, T1, hB]
  have n4 : n1 ≤ 1401 / 1000000 * (L * nD) := by linarith only [hn1e.2, T2, hB, hmLn]
  -- the denominator
  obtain ⟨N, hN⟩ : ∃ N, N = flFwsNorm rd P 0 st := ⟨_, rfl⟩
  obtain ⟨N1, N2⟩ : (1 - 1 / 1000) * dot D D ≤ N ∧ N ≤ (1 + 1 / 1000) * dot D D := by
    have := flNormSq_error h.rnd h.u_le (d := d) (by linarith) (by linarith) (hP.norm 0 0 D)
    rw [hN, flFwsNorm, hDd]
    have hb : (8 * (d : ℝ) + 8) * w ≤ 1 / 1000 := by linarith
    have t := mul_le_mul_of_nonneg_right hb hQ0.le
    constructor
    · linarith only [this.1, t]
    · linarith only [this.2, t]
  rw [← hQn] at N1 N2
  have q1 : 999 / 1000 * nD ≤ √N := by
    refine Real.le_sqrt_of_sq_le (le_trans ?_ N1)
    nlinarith only [sq_nonneg nD]
  have q2 : √N ≤ 1001 / 1000 * nD := by
    rw [Real.sqrt_le_left (by positivity)]
    refine N2.trans ?_
    nlinarith only [sq_nonneg nD]
  obtain ⟨r, hr⟩ : ∃ r, r = rd √N := ⟨_, rfl⟩
  obtain ⟨r1, r2⟩ := rel_bounds h.rnd h.u_le (Real.sqrt_nonneg N)
  rw [← hr] at r1 r2
  have wN : w * √N ≤ 1 / 8000 * √N := mul_le_mul_of_nonneg_right hw8 (Real.sqrt_nonneg N)
  have r3 : 998 / 1000 * nD ≤ r := by linarith only [r1, q1, wN, hnD0]
  have r4 : r ≤ 1002 / 1000 * nD := by linarith only [r2, q2, wN, hnD0]
  have r0 : 0 ≤ r := by linarith only [r3, hnD0]
  obtain ⟨den, hden⟩ : ∃ den, den = rd (s * r) := ⟨_, rfl⟩
  obtain ⟨e1, e2⟩ := rel_bounds h.rnd h.u_le (mul_nonneg s0 r0)
  rw [← hden] at e1 e2
  have wS : w * (s * r) ≤ 1 / 8000 * (s * r) := mul_le_mul_of_nonneg_right hw8 (mul_nonneg s0 r0)
  have e5 : 999 / 1000000 * (998 / 1000 * nD) ≤ s * r := mul_le_mul (by linarith) r3 (by positivity) s0
  have e6 : s * r ≤ 1001 / 1000000 * (1002 / 1000 * nD) := mul_le_mul (by linarith) r4 r0 (by norm_num)
  have e3 : 98 / 100000 * nD ≤ den := by linarith only [e1, wS, e5, hnD0]
  have e4 : den ≤ 102 / 100000 * nD := by linarith only [e2, wS, e6, hnD0]
  have den0 : 0 < den := by linarith only [e3, hnDp]
  -- the quotient
  have hlipe : flFwsLip rd P 0 st = rd (n1 / den) := by
    rw [hden, hr, hN, hn1, hv, hge, hs, hy]
    unfold flFwsLip
    rw [hsl]
    simp only [hDd, hsx, hsg, hs]
  have n10 : 0 ≤ n1 := by linarith only [n3, hmn]
  obtain ⟨f1, f2⟩ := rel_bounds h.rnd h.u_le (div_nonneg n10 den0.le)
  have wq : w * (n1 / den) ≤ 1 / 8000 * (n1 / den) := mul_le_mul_of_nonneg_right hw8 (div_nonneg n10 den0.le)
  have g1 : 58 / 100 * mu ≤ n1 / den := by
    rw [le_div_iff₀ den0]
    have := mul_le_mul_of_nonneg_left e4 hmu.le
    linarith only [this, n3, hmn]
  have g2 : n1 / den ≤ 15 / 10 * L := by
    rw [div_le_iff₀ den0]
    have := mul_le_mul_of_nonneg_left e3 hL
    linarith only [this, n4, hmLn, hmn]
  rw [hlipe]
  exact ⟨by linarith only [f1, wq, g1, hmu], by linarith only [f2, wq, g2, hL], by linarith⟩

end

/-- Conditions on the tolerance: `flow` is a lower bound of the objective near the ball, an iteration decreases the objective by `de > 0` despite the slack `EPS` of the line search
(frank_wolfe.py:14, the machine epsilon of single precision), and the estimate of the Lipschitz constant, multiplied by 0.9 before each search and doubled at most 99 times in it, can get above `L`. -/
structure FwsEnough (f : EuclideanSpace ℝ (Fin d) → ℝ) (L alpha flow l0 M de : ℝ) (P : FlFWSArgs d) : Prop where
  low : ∀ x : Fin d → ℝ, norm1 x ≤ 1.05 * alpha → flow ≤ f (WithLp.toLp 2 x)
  de_def : de = min (P.tol / 2) (P.tol ^ 2 / (9 * M * alpha ^ 2)) - 2⁻¹ ^ 22
  de_pos : 0 < de
  search : ∃ N1 : ℕ, f (WithLp.toLp 2 P.x0) - flow < N1 * (P.tol / 2 - 2⁻¹ ^ 22) ∧ L ≤ (199 / 100) ^ 99 * ((89 / 100) ^ N1 * min l0 (P.tol / (5 * alpha ^ 2)))

/-- A constant that makes `FwsSmall` and the other conditions hold. -/
theorem exists_fwsSmall (hL : 0 ≤ L) (ha : 0 < alpha) (hK : 0 ≤ K) (k0 : FwsConst f g L alpha K) :
    ∃ C, 0 < C ∧ 2 * k0.c ≤ C ∧ k0.K3 + 2 * alpha * (K * (1 + 2 * alpha)) ≤ C ∧ 2 * (k0.K3 + k0.Gm * (3 * alpha + 1)) ≤ C ∧ 10000 * (k0.Gm + 1) * k0.c2 ≤ C ∧
      10000 * (k0.Gm + 1) * k0.est ≤ C ∧ 40 * k0.c ≤ alpha * C ∧
      ∀ (rd : ℝ → ℝ) (u w : ℝ), Rounding rd u 0 → rd 1 = 1 → u ≤ w → C * w ≤ 2⁻¹ ^ 23 → FwsSmall k0 rd u w := by
  obtain ⟨hG0, hF, -, hK3⟩ := k0.toFwConst.pos hL ha hK
  have hc0 := k0.toFwConst.c_nonneg ha.le
  obtain ⟨p1, p2, p3, p4⟩ := k0.pos hL ha hK
  have p5 : 0 ≤ k0.c2 := by rw [k0.c2_def]; positivity
  have hd0 : (0 : ℝ) ≤ d := Nat.cast_nonneg d
  have he : 0 ≤ k0.est := by unfold FwsConst.est; positivity
  obtain ⟨C, hC⟩ : ∃ C, C = k0.tot + 8000 * (d + 1) + k0.K3 + k0.c2 + 40 * k0.c / alpha + 2 * k0.c + (k0.K3 + 2 * alpha * (K * (1 + 2 * alpha))) + 2 * (k0.K3 + k0.Gm * (3 * alpha + 1))
    + 10000 * (k0.Gm + 1) * k0.c2 + 10000 * (k0.Gm + 1) * k0.est := ⟨_, rfl⟩
  have a1 : 0 ≤ 40 * k0.c / alpha := by positivity
  have a2 : 0 ≤ k0.K3 + 2 * alpha * (K * (1 + 2 * alpha)) := by positivity
  have a3 : 0 ≤ 2 * (k0.K3 + k0.Gm * (3 * alpha + 1)) := by positivity
  have a4 : 0 ≤ 10000 * (k0.Gm + 1) * k0.c2 := by positivity
  have a5 : 0 ≤ 10000 * (k0.Gm + 1) * k0.est := by positivity
  have hca : 40 * k0.c ≤ alpha * C := by
    have h1 : 40 * k0.c / alpha ≤ C := by rw [hC]; linarith
    rw [div_le_iff₀ ha] at h1
    linarith
  refine ⟨C, by rw [hC]; linarith, by rw [hC]; linarith, by rw [hC]; linarith, by rw [hC]; linarith, by rw [hC]; linarith, by rw [hC]; linarith, hca, ?_⟩
  intro rd u w hr h1 hu hw
  have hw0 : 0 ≤ w := hr.u_nonneg.trans hu
  have hw1 : C * w ≤ 1 := hw.trans (by norm_num)
  have m : ∀ q, q ≤ C → q * w ≤ C * w := fun q hq => mul_le_mul_of_nonneg_right hq hw0
  refine ⟨hr, h1, hu, (m _ (by rw [hC]; linarith)).trans hw1, (m _ (by rw [hC]; linarith)).trans hw1, (m _ (by rw [hC]; linarith)).trans hw1, ?_, (m _ (by rw [hC]; linarith)).trans hw⟩
  have h2 := mul_le_mul_of_nonneg_right hca hw0
  have h3 := mul_le_mul_of_nonneg_left hw1 ha.le
  linarith

/-- **C134**, `lipschitz=l` given.  `minimize_frank_wolfe` on the l1 ball with the default `step="backtracking"` in rounded arithmetic, for a convex objective with Lipschitz gradient whose values and
gradients are computed to a relative precision `w`: no line search fails, the objective decreases by `de` in each iteration, and the reported certificate bounds the distance to the minimum. -/
theorem C134_rounded_backtracking (hL : 0 ≤ L) (ha : 0 < alpha) (hK : 0 ≤ K) (hcv : ConvexGrad f g) (hG : LipGrad g L) (hq : UpperQuad f g L) :
    ∃ C, 0 < C ∧ ∀ (rd : ℝ → ℝ) (u w : ℝ), Rounding rd u 0 → rd 1 = 1 → u ≤ w → C * w ≤ 2⁻¹ ^ 23 →
      ∀ P : FlFWSArgs d, FwsOracles f g alpha K rd w P → norm1 P.x0 ≤ alpha → 0 < P.tol → 1 ≤ P.maxIter → C * (P.maxIter * w) ≤ 1 →
      ∀ l, P.lipschitz = some l → 0 < l → ∀ flow de, FwsEnough f L alpha flow l (max l (201 / 100 * L)) de P → FwsGuarantee f alpha flow de C w P (flMinimizeFWS rd P) := by
  obtain ⟨k0⟩ := exists_fwsConst f g L alpha K
  obtain ⟨C, hC, c1, c2, -, -, -, c3, hs⟩ := exists_fwsSmall hL ha hK k0
  refine ⟨C, hC, ?_⟩
  intro rd u w hr h1 hu hw P hP hx0 htol hm hmw l hl hl0 flow de he
  obtain ⟨N1, e1, e2⟩ := he.search
  have hw0 : 0 ≤ w := hr.u_nonneg.trans hu
  have hE : 2 * fwEPS = 2⁻¹ ^ 22 := by norm_num [fwEPS]
  refine fws_guarantee (hs rd u w hr h1 hu hw) ha hL hK hcv hG hq hP hx0 htol hm ?_ (l0 := min l (P.tol / (5 * alpha ^ 2))) (lt_min hl0 (by positivity)) ?_ ?_ (le_max_right _ _)
    (lt_max_of_lt_left hl0) he.low rfl (by rw [hE]; exact he.de_def) he.de_pos (by rw [hE]; exact e1) e2 c1 c2
  · have t1 := mul_le_mul_of_nonneg_right c3 (show 0 ≤ P.maxIter * w by positivity)
    have t2 := mul_le_mul_of_nonneg_left hmw ha.le
    linarith
  · have := min_le_right l (P.tol / (5 * alpha ^ 2))
    rw [le_div_iff₀ (by positivity)] at this
    linarith
  · intro _
    have : flFwsLip rd P 0 (flFwsStart P) = l := by
      unfold flFwsLip flFwsStart
      rw [hl]
    rw [this]
    exact ⟨min_le_left _ _, le_max_left _ _⟩

/-- **C134**, `lipschitz=None` (the default).  The same with the estimate of frank_wolfe.py:257-262, if between the start and the point at which the gradient is evaluated for it, the gradient changes by at
least `mu` times the distance.  Without this the estimate can be zero, which is never increased (`C88_refuted`). -/
theorem C134_rounded_default (hL : 0 ≤ L) (ha : 0 < alpha) (hK : 0 ≤ K) (hcv : ConvexGrad f g) (hG : LipGrad g L) (hq : UpperQuad f g L) :
    ∃ C, 0 < C ∧ ∀ (rd : ℝ → ℝ) (u w : ℝ), Rounding rd u 0 → rd 1 = 1 → u ≤ w → C * w ≤ 2⁻¹ ^ 23 →
      ∀ P : FlFWSArgs d, FwsOracles f g alpha K rd w P → norm1 P.x0 ≤ alpha → 0 < P.tol → 1 ≤ P.maxIter → C * (P.maxIter * w) ≤ 1 → P.lipschitz = none → C * w ≤ P.tol →
      ∀ mu, 0 < mu → C * w ≤ mu * P.tol →
      (∀ Y, Y = WithLp.toLp 2 (flFbPoint rd P.x0 (flL1Lmo rd P.alpha (fun j => -P.grad 0 0 P.x0 j) P.x0) (rd (1 / 1000))) →
        mu * ‖Y - WithLp.toLp 2 P.x0‖ ≤ ‖g Y - g (WithLp.toLp 2 P.x0)‖) →
      ∀ flow de, FwsEnough f L alpha flow (mu / 2) (201 / 100 * L) de P → FwsGuarantee f alpha flow de C w P (flMinimizeFWS rd P) := by
  obtain ⟨k0⟩ := exists_fwsConst f g L alpha K
  obtain ⟨C, hC, c1, c2, c4, c5, c6, c3, hs⟩ := exists_fwsSmall hL ha hK k0
  refine ⟨C, hC, ?_⟩
  intro rd u w hr h1 hu hw P hP hx0 htol hm hmw hl hwt mu hmu hwm hquot flow de he
  obtain ⟨N1, e1, e2⟩ := he.search
  have hw0 : 0 ≤ w := hr.u_nonneg.trans hu
  have hE : 2 * fwEPS = 2⁻¹ ^ 22 := by norm_num [fwEPS]
  have hM : 0 < 201 / 100 * L := by
    rcases hL.lt_or_eq with h' | h'
    · linarith
    · have h2 := he.de_def
      have h3 := min_le_right (P.tol / 2) (P.tol ^ 2 / (9 * (201 / 100 * L) * alpha ^ 2))
      have h4 := he.de_pos
      rw [← h', mul_zero, mul_zero, zero_mul, div_zero] at h2 h3
      have : (0 : ℝ) < 2⁻¹ ^ 22 := by positivity
      linarith
  refine fws_guarantee (hs rd u w hr h1 hu hw) ha hL hK hcv hG hq hP hx0 htol hm ?_ (l0 := min (mu / 2) (P.tol / (5 * alpha ^ 2))) (lt_min (by linarith) (by positivity)) ?_ ?_ le_rfl
    hM he.low rfl (by rw [hE]; exact he.de_def) he.de_pos (by rw [hE]; exact e1) e2 c1 c2
  · have t1 := mul_le_mul_of_nonneg_right c3 (show 0 ≤ P.maxIter * w by positivity)
    have t2 := mul_le_mul_of_nonneg_left hmw ha.le
    linarith
  · have := min_le_right (mu / 2) (P.tol / (5 * alpha ^ 2))
    rw [le_div_iff₀ (by positivity)] at this
    linarith
  · intro hc
    have m : ∀ q, q ≤ C → q * w ≤ C * w := fun q hq => mul_le_mul_of_nonneg_right hq hw0
    have t4 := m _ c4
    have t5 := m _ c5
    have t6 := m _ c6
    obtain ⟨a1, a2, -⟩ := fws_estimate (hs rd u w hr h1 hu hw) ha hL hK hG hq hP hx0 hl hmu hquot htol (by linarith) (by linarith) (by linarith) hc
    exact ⟨(min_le_left _ _).trans a1, a2⟩

/-! ### The loss functions of the library -/

/-- The oracles are the loss functions of the library and BLAS, in rounded arithmetic. -/
structure FwsLib (rd fexp flog1p : ℝ → ℝ) (f : LossObj n d) (alpha : ℝ) (P : FlFWSArgs d) : Prop where
  value : ∀ k i x, f.FlValue rd fexp flog1p x (P.value k i x)
  grad : ∀ k i x, f.FlGrad rd fexp x (P.grad k i x)
  inner : ∀ k v y, FlDot rd (List.ofFn fun j => (v j, y j)) (P.dot k v y)
  norm : ∀ k i v, FlNorm rd v (P.norm k i v)
  alpha_eq : P.alpha = alpha

theorem fwsOracles_library (hn : 0 < n) (f : LossObj n d) (hf : f.Good) (alpha : ℝ) :
    ∃ K M, 0 ≤ K ∧ 0 ≤ M ∧ ∀ (rd fexp flog1p : ℝ → ℝ) (u w : ℝ), Rounding rd u 0 → u ≤ w → (∀ g, f = .log g → 2⁻¹ ^ 53 ≤ w) →
      (∀ t ≤ 18, 0 ≤ fexp t ∧ |fexp t - Real.exp t| ≤ w * Real.exp t) → (∀ s, 0 ≤ s → |flog1p s - Real.log (1 + s)| ≤ w * Real.log (1 + s)) → M * w ≤ 1 →
      ∀ P : FlFWSArgs d, FwsLib rd fexp flog1p f alpha P → FwsOracles f.fn f.gradE alpha K rd w P := by
  obtain ⟨K1, hK1, g1⟩ := f.flGrad_error hf
  obtain ⟨K3, hK3, g3⟩ := f.value_error hn hf
  obtain ⟨K, hK⟩ : ∃ K, K = K1 + K3 := ⟨_, rfl⟩
  have hn0 : (0 : ℝ) ≤ n := Nat.cast_nonneg n
  have hd0 : (0 : ℝ) ≤ d := Nat.cast_nonneg d
  refine ⟨K, 4 * n + 4 * d + 10, by rw [hK]; positivity, by positivity, ?_⟩
  intro rd fexp flog1p u w hr hu hwl hexp hlog hCw P hP
  have hw0 : 0 ≤ w := hr.u_nonneg.trans hu
  have hnw : 0 ≤ n * w := by positivity
  have hdw : 0 ≤ d * w := by positivity
  have hsc : Scale rd u 0 w 1 := ⟨hr, hu, by positivity, hw0, by linarith, le_rfl⟩
  have mono : ∀ k, k ≤ K → ∀ a, 0 ≤ a → k * w * a ≤ K * w * a := fun k hk a ha => mul_le_mul_of_nonneg_right (mul_le_mul_of_nonneg_right hk hw0) ha
  refine ⟨fun k i x => ?_, fun k i x j => ?_, hP.inner, hP.norm, hP.alpha_eq⟩
  · have hx0 := norm2_nonneg' x
    exact (g3 rd fexp flog1p u w hr hu hwl (by linarith) (by linarith) (by linarith) hexp hlog x _ (hP.value k i x)).trans (mono _ (by rw [hK]; linarith) _ (by positivity))
  · have hx0 := norm2_nonneg' x
    refine (g1 rd u 0 w hsc (by linarith) (by linarith) (by linarith) fexp (fun t ht => ?_) x _ (hP.grad k i x) j).trans (mono _ (by rw [hK]; linarith) _ (by positivity))
    have h1 := (hexp t (by linarith)).2
    have h2 := mul_le_mul_of_nonneg_left (Real.exp_le_one_iff.mpr ht) hw0
    linarith

/-- **C134** for the losses of the library, which are non-negative: with `lipschitz=l` given, or, with `alpha > 0` as regularization of the loss, with the default `lipschitz=None`. -/
theorem C134_rounded_library (hn : 0 < n) (f : LossObj n d) (hf : f.Good) {sv : ℝ} (hsv : IsLargestSingular f.mat sv) (ha : 0 < alpha) :
    ∃ C, 0 < C ∧ ∀ (rd fexp flog1p : ℝ → ℝ) (u w : ℝ), Rounding rd u 0 → rd 1 = 1 → u ≤ w → C * w ≤ 2⁻¹ ^ 23 → (∀ g, f = .log g → 2⁻¹ ^ 53 ≤ w) →
      (∀ t ≤ 18, 0 ≤ fexp t ∧ |fexp t - Real.exp t| ≤ w * Real.exp t) → (∀ s, 0 ≤ s → |flog1p s - Real.log (1 + s)| ≤ w * Real.log (1 + s)) →
      ∀ P : FlFWSArgs d, FwsLib rd fexp flog1p f alpha P → norm1 P.x0 ≤ alpha → 0 < P.tol → 1 ≤ P.maxIter → C * (P.maxIter * w) ≤ 1 →
      (∀ l de, P.lipschitz = some l → 0 < l → FwsEnough f.fn (f.lipschitz sv) alpha 0 l (max l (201 / 100 * f.lipschitz sv)) de P → FwsGuarantee f.fn alpha 0 de C w P (flMinimizeFWS rd P)) ∧
      (∀ de, P.lipschitz = none → 0 < f.reg → C * w ≤ P.tol → C * w ≤ f.reg * P.tol → FwsEnough f.fn (f.lipschitz sv) alpha 0 (f.reg / 2) (201 / 100 * f.lipschitz sv) de P →
        FwsGuarantee f.fn alpha 0 de C w P (flMinimizeFWS rd P)) := by
  obtain ⟨hstr, hcv, hq, hG, -⟩ := C92_loss f hf hsv
  have hL : 0 ≤ f.lipschitz sv := by
    obtain ⟨phi, phi', c, hc, hLc, -⟩ := f.erm_form hf
    rw [hLc]
    have h1 : 0 ≤ c * (sv * sv) / n := by have := mul_self_nonneg sv; positivity
    have h2 := f.reg_nonneg hf
    linarith
  obtain ⟨K, M, hK, hM, hO⟩ := fwsOracles_library hn f hf alpha
  obtain ⟨C1, hC1, h1⟩ := C134_rounded_backtracking hL ha hK hcv hG hq
  obtain ⟨C2, hC2, h2⟩ := C134_rounded_default hL ha hK hcv hG hq
  refine ⟨C1 + C2 + M, by linarith, ?_⟩
  intro rd fexp flog1p u w hr hr1 hu hw hwl hexp hlog P hP hx0 htol hm hmw
  have hw0 : 0 ≤ w := hr.u_nonneg.trans hu
  have m1 : 0 ≤ C1 * w := by positivity
  have m2 : 0 ≤ C2 * w := by positivity
  have m3 : 0 ≤ M * w := by positivity
  have n1 : 0 ≤ C1 * (P.maxIter * w) := by positivity
  have n2 : 0 ≤ C2 * (P.maxIter * w) := by positivity
  have n3 : 0 ≤ M * (P.maxIter * w) := by positivity
  have hMw : M * w ≤ 1 := by
    have : (2⁻¹ : ℝ) ^ 23 ≤ 1 := by norm_num
    linarith
  have hPO := hO rd fexp flog1p u w hr hu hwl hexp hlog hMw P hP
  have mono : ∀ C', 0 ≤ C' → C' ≤ C1 + C2 + M → ∀ de, FwsGuarantee f.fn alpha 0 de C' w P (flMinimizeFWS rd P) → FwsGuarantee f.fn alpha 0 de (C1 + C2 + M) w P (flMinimizeFWS rd P) := by
    intro C' _ hC' de hg
    refine ⟨hg.near.trans ?_, hg.quiet, hg.decrease, hg.nit_lt, hg.steps, fun h y hy => (hg.certified h y hy).trans ?_, hg.exhausted, hg.reached⟩
    · have := mul_le_mul_of_nonneg_right hC' (show (0 : ℝ) ≤ ((flMinimizeFWS rd P).nit + 1) * w by positivity)
      linarith
    · have := mul_le_mul_of_nonneg_right hC' hw0
      linarith
  constructor
  · intro l de hl hl0 he
    exact mono C1 hC1.le (by linarith) de (h1 rd u w hr hr1 hu (by linarith) P hPO hx0 htol hm (by linarith) l hl hl0 0 de he)
  · intro de hl hreg hwt hwm he
    refine mono C2 hC2.le (by linarith) de (h2 rd u w hr hr1 hu (by linarith) P hPO hx0 htol hm (by linarith) hl (by linarith) f.reg hreg (by linarith) (fun Y _ => ?_) 0 de he)
    obtain ⟨X, hX⟩ : ∃ X : EuclideanSpace ℝ (Fin d), X = WithLp.toLp 2 P.x0 := ⟨_, rfl⟩
    rw [← hX]
    have t1 := hstr.mono Y X
    have t2 := real_inner_le_norm (f.gradE Y - f.gradE X) (Y - X)
    rcases (norm_nonneg (Y - X)).lt_or_eq with h0 | h0
    · refine le_of_mul_le_mul_right ?_ h0
      linarith
    · rw [← h0, mul_zero]
      exact norm_nonneg _

/-! ### Instances -/

theorem exists_fwsLib (rd fexp flog1p : ℝ → ℝ) (hn : 0 < n) (hd : 0 < d) (f : LossObj n d) (alpha : ℝ) (x0 : Fin d → ℝ) (tol : ℝ) (maxIter : ℕ) (lip : Option ℝ) :
    ∃ P : FlFWSArgs d, FwsLib rd fexp flog1p f alpha P ∧ P.x0 = x0 ∧ P.tol = tol ∧ P.maxIter = maxIter ∧ P.lipschitz = lip := by
  choose gr hgr using fun x => f.exists_flGrad rd fexp hn hd x
  choose va hva using fun x => f.exists_flValue rd fexp flog1p hn hd x
  choose no hno using fun v : Fin d → ℝ => exists_flNorm rd hd v
  choose dt hdt using fun a b : Fin d → ℝ => exists_flDot_vec rd hd fun j => (a j, b j)
  exact ⟨⟨fun _ _ => va, fun _ _ => gr, fun _ => dt, fun _ _ => no, alpha, x0, tol, maxIter, lip⟩, ⟨fun _ _ => hva, fun _ _ => hgr, fun _ => hdt, fun _ _ => hno, rfl⟩, rfl, rfl, rfl, rfl⟩

/-- C134 in binary arithmetic with enough bits, for every square or Huber loss with regularization, starting point in the ball, tolerance and `max_iter` that meet the conditions on the tolerance, with the
default `lipschitz=None`. -/
theorem fws_instance (hn : 0 < n) (hd : 0 < d) (f : LossObj n d) (hf : f.Good) (hlog : ∀ g, f ≠ .log g) (hreg : 0 < f.reg) {sv : ℝ} (hsv : IsLargestSingular f.mat sv) (ha : 0 < alpha) {x0 : Fin d → ℝ}
    (hx0 : norm1 x0 ≤ alpha) {tol de e : ℝ} (htol : 0 < tol) (he : 0 < e) {maxIter : ℕ} (hm : 1 ≤ maxIter)
    (hen : ∀ P : FlFWSArgs d, P.x0 = x0 → P.tol = tol → FwsEnough f.fn (f.lipschitz sv) alpha 0 (f.reg / 2) (201 / 100 * f.lipschitz sv) de P) :
    ∃ p0 : ℕ, ∀ p ≥ p0, ∃ P : FlFWSArgs d, FwsLib (flBits p) (fun t => flBits p (Real.exp t)) (fun s => flBits p (Real.log (1 + s))) f alpha P ∧ P.x0 = x0 ∧ P.tol = tol ∧ P.maxIter = maxIter ∧
      P.lipschitz = none ∧ ∃ c ≤ e, FwsGuarantee f.fn alpha 0 de c 1 P (flMinimizeFWS (flBits p) P) := by
  obtain ⟨C, hC, h⟩ := C134_rounded_library hn f hf hsv ha
  have hm0 : (1 : ℝ) ≤ maxIter := by exact_mod_cast hm
  obtain ⟨b, hb⟩ : ∃ b : ℝ, b = min (min ((2⁻¹ : ℝ) ^ 23) (1 / (maxIter : ℝ))) (min (min tol e) (f.reg * tol)) := ⟨_, rfl⟩
  have hb0 : 0 < b := by rw [hb]; exact lt_min (lt_min (by positivity) (by positivity)) (lt_min (lt_min htol he) (by positivity))
  obtain ⟨p0, hp0⟩ := exists_pow_lt_of_lt_one (show 0 < b / C by positivity) (show (2⁻¹ : ℝ) < 1 by norm_num)
  refine ⟨p0, fun p hp => ?_⟩
  have hw : C * (2⁻¹ : ℝ) ^ p ≤ b := by
    rw [mul_comm, ← le_div_iff₀ hC]
    exact ((pow_le_pow_of_le_one (by norm_num) (by norm_num) hp).trans hp0.le)
  have hpos : (0 : ℝ) < 2⁻¹ ^ p := by positivity
  have hr := flBits_rounding (p := p) (eta := 0) le_rfl
  have hu : (2⁻¹ : ℝ) ^ (p + 1) ≤ 2⁻¹ ^ p := pow_le_pow_of_le_one (by norm_num) (by norm_num) (Nat.le_succ p)
  obtain ⟨P, hP, hx, ht, hmi, hl⟩ := exists_fwsLib (flBits p) (fun t => flBits p (Real.exp t)) (fun s => flBits p (Real.log (1 + s))) hn hd f alpha x0 tol maxIter none
  have b1 : b ≤ 2⁻¹ ^ 23 := by rw [hb]; exact (min_le_left _ _).trans (min_le_left _ _)
  have b2 : b ≤ 1 / maxIter := by rw [hb]; exact (min_le_left _ _).trans (min_le_right _ _)
  have b3 : b ≤ tol := by rw [hb]; exact (min_le_right _ _).trans ((min_le_left _ _).trans (min_le_left _ _))
  have b4 : b ≤ e := by rw [hb]; exact (min_le_right _ _).trans ((min_le_left _ _).trans (min_le_right _ _))
  have b5 : b ≤ f.reg * tol := by rw [hb]; exact (min_le_right _ _).trans (min_le_right _ _)
  have hmw : C * (maxIter * (2⁻¹ : ℝ) ^ p) ≤ 1 := by
    have := hw.trans b2
    rw [le_div_iff₀ (by linarith)] at this
    linarith
  obtain ⟨-, h2⟩ := h (flBits p) (fun t => flBits p (Real.exp t)) (fun s => flBits p (Real.log (1 + s))) (2⁻¹ ^ (p + 1)) (2⁻¹ ^ p) hr (flBits_one p) hu (hw.trans b1) (fun g hg => absurd hg (hlog g))
    (fun t _ => ⟨hr.nonneg (Real.exp_pos t).le, by have := rel_err hr hu (Real.exp t); rwa [abs_of_pos (Real.exp_pos t)] at this⟩)
    (fun s hs => by have := rel_err hr hu (Real.log (1 + s)); rwa [abs_of_nonneg (Real.log_nonneg (by linarith))] at this) P hP (by rw [hx]; exact hx0) (by rw [ht]; exact htol) (by rw [hmi]; exact hm)
    (by rw [hmi]; exact hmw)
  have hg := h2 de hl hreg (by rw [ht]; exact hw.trans b3) (by rw [ht]; exact hw.trans b5) (hen P hx ht)
  refine ⟨P, hP, hx, ht, hmi, hl, C * 2⁻¹ ^ p, hw.trans b4, ⟨?_, hg.quiet, hg.decrease, hg.nit_lt, hg.steps, fun h y hy => ?_, hg.exhausted, hg.reached⟩⟩
  · have := hg.near
    linarith
  · have := hg.certified h y hy
    linarith

/-- Least squares with data `(3, 4)`, target `2` and `alpha = 1/2` on the unit l1 ball from `0`, `tol = 1/10`, `max_iter = 100000` and the default `lipschitz=None`: with enough bits, the solver stops by the
tolerance, without a warning, at a point with value within `2/10` of the best value on the ball. -/
example : ∃ p0 : ℕ, ∀ p ≥ p0, ∃ P : FlFWSArgs 2, FwsLib (flBits p) (fun t => flBits p (Real.exp t)) (fun s => flBits p (Real.log (1 + s))) (.square ⟨fun _ : Fin 1 => ![3, 4], ![2], 1 / 2⟩) 1 P ∧
    P.x0 = 0 ∧ P.tol = 1 / 10 ∧ P.maxIter = 100000 ∧ P.lipschitz = none ∧ (flMinimizeFWS (flBits p) P).certificate ≤ 1 / 10 ∧ (flMinimizeFWS (flBits p) P).warned = false ∧
    ∀ y, norm1 y ≤ 1 → (LossObj.square ⟨fun _ : Fin 1 => ![3, 4], ![2], 1 / 2⟩).fn (WithLp.toLp 2 (flMinimizeFWS (flBits p) P).x) ≤
      (LossObj.square ⟨fun _ : Fin 1 => ![3, 4], ![2], 1 / 2⟩).fn (WithLp.toLp 2 y) + 2 / 10 := by
  obtain ⟨f, hfe⟩ : ∃ f : LossObj 1 2, f = .square ⟨fun _ : Fin 1 => ![3, 4], ![2], 1 / 2⟩ := ⟨_, rfl⟩
  have hl : f.lipschitz 5 = 51 / 2 := by
    rw [hfe]
    show 5 * 5 / ((1 : ℕ) : ℝ) + 1 / 2 = 51 / 2
    norm_num
  have hreg : f.reg = 1 / 2 := by rw [hfe]; rfl
  have hgood : f.Good := by rw [hfe]; show (0 : ℝ) ≤ 1 / 2; norm_num
  have hsv : IsLargestSingular f.mat 5 := by rw [hfe]; exact largestSingular_example
  have hf0 : f.fn (WithLp.toLp 2 0) = 2 := by
    rw [hfe]
    show squareLoss (fun _ : Fin 1 => (![3, 4] : Fin 2 → ℝ)) ![2] (1 / 2) 0 = 2
    simp [squareLoss, dot]
    try norm_num
  obtain ⟨-, -, -, -, hnn⟩ := C92_loss f hgood hsv
  rw [← hfe]
  obtain ⟨p0, h⟩ := fws_instance (alpha := 1) one_pos two_pos f hgood (fun g hg => by rw [hfe] at hg; cases hg) (by rw [hreg]; norm_num) hsv one_pos (x0 := 0) (by simp [norm1]) (tol := 1 / 10)
    (de := min (1 / 20) ((1 / 10) ^ 2 / (9 * (201 / 100 * (51 / 2)) * 1 ^ 2)) - 2⁻¹ ^ 22) (e := 1 / 10) (by norm_num) (by norm_num) (maxIter := 100000) (by norm_num) (fun P hx ht => by
      rw [hl, hreg]
      refine ⟨fun x _ => hnn _, by rw [ht]; norm_num, by norm_num, 41, ?_, ?_⟩
      · rw [hx, hf0, ht]; norm_num
      · rw [ht]; norm_num)
  refine ⟨p0, fun p hp => ?_⟩
  obtain ⟨P, hP, hx, ht, hm, hn, c, hc, hg⟩ := h p hp
  have hcert := hg.reached (by rw [hx, hf0, hm]; norm_num)
  refine ⟨P, hP, hx, ht, hm, hn, by rw [← ht]; exact hcert, hg.quiet, fun y hy => ?_⟩
  have := hg.certified hcert y hy
  rw [ht] at hcert
  linarith

end Copt
