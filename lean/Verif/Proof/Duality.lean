import Mathlib.Analysis.LocallyConvex.Separation
import Mathlib.Analysis.InnerProductSpace.Dual
import Verif.Spec.Smooth
import Verif.Proof.Convex

/-!
# Dual solutions

Subgradients of a sum `f + g + h ∘ M` at a minimiser, when `h` is finite and continuous.
-/

set_option linter.unusedSectionVars false

namespace Copt

open Spec
open scoped InnerProductSpace

variable {E F : Type} [NormedAddCommGroup E] [InnerProductSpace ℝ E] [NormedAddCommGroup F] [InnerProductSpace ℝ F]

/-- At a minimiser of `Φ + h ∘ M` there is a subgradient of `h` whose negative pulls back to a subgradient of `Φ`. -/
theorem exists_dual [CompleteSpace F] (M : E →ₗ[ℝ] F) {Φ : ExtFun E} (hΦ : Φ.IsConvex) {h : F → ℝ} (hh : ConvexOn ℝ Set.univ h)
    (hcont : Continuous h) {xs : E} (hxs : xs ∈ Φ.dom) (hmin : ∀ x ∈ Φ.dom, Φ.val xs + h (M xs) ≤ Φ.val x + h (M x)) :
    ∃ y : F, (∀ w, h (M xs) + ⟪y, w - M xs⟫_ℝ ≤ h w) ∧ ∀ x ∈ Φ.dom, Φ.val xs - ⟪y, M x - M xs⟫_ℝ ≤ Φ.val x := by
  set S : Set (F × ℝ) := {a | h a.1 < a.2} with hS
  set T : Set (F × ℝ) := {b | ∃ x ∈ Φ.dom, M x = b.1 ∧ b.2 ≤ h (M xs) + Φ.val xs - Φ.val x} with hT
  have hSc : Convex ℝ S := by
    intro a ha b hb s t hs ht hst
    have h1 := hh.2 (Set.mem_univ a.1) (Set.mem_univ b.1) hs ht hst
    simp only [hS, Set.mem_ofPred_eq, smul_eq_mul] at ha hb h1 ⊢
    show h (s • a.1 + t • b.1) < s * a.2 + t * b.2
    refine lt_of_le_of_lt h1 ?_
    rcases hs.lt_or_eq with hs' | hs'
    · have h2 := mul_lt_mul_of_pos_left ha hs'
      have h3 := mul_le_mul_of_nonneg_left hb.le ht
      linarith
    · have ht' : t = 1 := by linarith
      rw [← hs', ht']
      linarith
  have hSo : IsOpen S := isOpen_lt (hcont.comp continuous_fst) continuous_snd
  have hTc : Convex ℝ T := by
    rintro a ⟨x, hx, hax, hat⟩ b ⟨y, hy, hby, hbt⟩ s t hs ht hst
    have h1 := hΦ.2 hx hy hs ht hst
    refine ⟨s • x + t • y, hΦ.1 hx hy hs ht hst, ?_, ?_⟩
    · rw [map_add, map_smul, map_smul, hax, hby]; rfl
    · show s * a.2 + t * b.2 ≤ _
      simp only [smul_eq_mul] at h1
      have h2 := mul_le_mul_of_nonneg_left hat hs
      have h3 := mul_le_mul_of_nonneg_left hbt ht
      have h4 : s * (h (M xs) + Φ.val xs) + t * (h (M xs) + Φ.val xs) = h (M xs) + Φ.val xs := by rw [← add_mul, hst, one_mul]
      linarith
  have hdisj : Disjoint S T := by
    rw [Set.disjoint_left]
    rintro a ha ⟨x, hx, hax, hat⟩
    have h1 := hmin x hx
    have ha : h a.1 < a.2 := ha
    rw [← hax] at ha
    linarith
  obtain ⟨φ, u, h1, h2⟩ := geometric_hahn_banach_open hSc hSo hTc hdisj
  set c := φ (0, 1) with hc
  set l : F →L[ℝ] ℝ := φ.comp (ContinuousLinearMap.inl ℝ F ℝ) with hl
  have hφ : ∀ w t, φ (w, t) = l w + t * c := by
    intro w t
    have : ((w, t) : F × ℝ) = (w, 0) + t • (0, 1) := by simp
    rw [this, map_add, map_smul]
    rfl
  have hxT : ((M xs, h (M xs)) : F × ℝ) ∈ T := ⟨xs, hxs, rfl, by show h (M xs) ≤ _; linarith⟩
  have h3 := h2 _ hxT
  have h4 := h1 (M xs, h (M xs) + 1) (by show h (M xs) < h (M xs) + 1; linarith)
  rw [hφ] at h3 h4
  have hc0 : c < 0 := by linarith
  have h5 : ∀ w, l w + h w * c ≤ u := by
    intro w
    refine le_of_forall_pos_lt_add fun ε hε => ?_
    have h6 := h1 (w, h w + ε / (-c)) (by show h w < h w + ε / (-c); have := div_pos hε (neg_pos.mpr hc0); linarith)
    rw [hφ] at h6
    have h7 : ε / (-c) * c = -ε := by have := hc0.ne; field_simp
    rw [add_mul, h7] at h6
    linarith
  refine ⟨(InnerProductSpace.toDual ℝ F).symm ((-c⁻¹) • l), fun w => ?_, fun x hx => ?_⟩
  · rw [InnerProductSpace.toDual_symm_apply]
    show h (M xs) + -c⁻¹ * l (w - M xs) ≤ h w
    have h6 := h5 w
    rw [map_sub]
    have h8 : (h w - h (M xs) + c⁻¹ * (l w - l (M xs))) * c ≤ 0 := by
      have : (h w - h (M xs) + c⁻¹ * (l w - l (M xs))) * c = (h w - h (M xs)) * c + (l w - l (M xs)) := by have := hc0.ne; field_simp
      rw [this]
      linarith
    have h9 := nonneg_of_mul_nonpos_left h8 hc0
    linarith
  · rw [InnerProductSpace.toDual_symm_apply]
    show Φ.val xs - -c⁻¹ * l (M x - M xs) ≤ Φ.val x
    have h6 := h2 (M x, h (M xs) + Φ.val xs - Φ.val x) ⟨x, hx, rfl, le_rfl⟩
    have h7 := h5 (M xs)
    rw [hφ] at h6
    rw [map_sub]
    have h8 : 0 ≤ (Φ.val xs - Φ.val x + c⁻¹ * (l (M x) - l (M xs))) * c := by
      have : (Φ.val xs - Φ.val x + c⁻¹ * (l (M x) - l (M xs))) * c = (Φ.val xs - Φ.val x) * c + (l (M x) - l (M xs)) := by have := hc0.ne; field_simp
      rw [this]
      linarith
    have h9 := nonpos_of_mul_nonneg_left h8 hc0
    linarith

/-- A subgradient of `f + G` minus the gradient of the smooth `f` is a subgradient of `G`. -/
theorem subgrad_sub_grad {G : ExtFun E} (hG : G.IsConvex) {f : E → ℝ} {g : E → E} {L : ℝ} (hq : UpperQuad f g L) {xs v : E} (hxs : xs ∈ G.dom)
    (hv : ∀ x ∈ G.dom, f xs + G.val xs + ⟪v, x - xs⟫_ℝ ≤ f x + G.val x) : IsSubgrad G xs (v - g xs) := by
  refine ⟨hxs, fun x hx => ?_⟩
  refine le_of_forall_pos_lt_add fun ε hε => ?_
  set q := L / 2 * ‖x - xs‖ ^ 2 with hqd
  obtain ⟨t, ht0, ht1, htq⟩ : ∃ t : ℝ, 0 < t ∧ t ≤ 1 ∧ t * q < ε := by
    refine ⟨min 1 (ε / (2 * (|q| + 1))), lt_min one_pos (by positivity), min_le_left _ _, ?_⟩
    have h1 : min 1 (ε / (2 * (|q| + 1))) ≤ ε / (2 * (|q| + 1)) := min_le_right _ _
    have h0 : 0 ≤ min 1 (ε / (2 * (|q| + 1))) := (lt_min one_pos (by positivity)).le
    calc min 1 (ε / (2 * (|q| + 1))) * q ≤ min 1 (ε / (2 * (|q| + 1))) * (|q| + 1) := mul_le_mul_of_nonneg_left (by linarith [le_abs_self q]) h0
      _ ≤ ε / (2 * (|q| + 1)) * (|q| + 1) := mul_le_mul_of_nonneg_right h1 (by positivity)
      _ = ε / 2 := by field_simp
      _ < ε := by linarith
  have hd : (1 - t) • xs + t • x - xs = t • (x - xs) := by module
  have h1 := hv _ (hG.1 hxs hx (by linarith : (0 : ℝ) ≤ 1 - t) ht0.le (by ring))
  have h2 := hG.2 hxs hx (by linarith : (0 : ℝ) ≤ 1 - t) ht0.le (by ring)
  have h3 := hq xs ((1 - t) • xs + t • x)
  rw [hd, inner_smul_right] at h1 h3
  rw [norm_smul, mul_pow, Real.norm_eq_abs, sq_abs] at h3
  simp only [smul_eq_mul] at h2
  rw [inner_sub_left]
  have h4 : t * (G.val xs + (⟪v, x - xs⟫_ℝ - ⟪g xs, x - xs⟫_ℝ)) ≤ t * (G.val x + t * q) := by
    rw [hqd]
    nlinarith
  have h5 := le_of_mul_le_mul_left h4 ht0
  linarith

/-- A primal-dual solution from a primal one. -/
theorem exists_saddle [CompleteSpace F] (M : E →ₗ[ℝ] F) {G : ExtFun E} (hG : G.IsConvex) {f : E → ℝ} {g : E → E} (hf : ConvexGrad f g) {L : ℝ}
    (hq : UpperQuad f g L) {h : F → ℝ} (hh : ConvexOn ℝ Set.univ h) (hcont : Continuous h) {xs : E} (hxs : xs ∈ G.dom)
    (hmin : ∀ x ∈ G.dom, f xs + G.val xs + h (M xs) ≤ f x + G.val x + h (M x)) :
    ∃ y : F, IsSubgrad ⟨Set.univ, h⟩ (M xs) y ∧ ∀ v : E, (∀ x, ⟪v, x⟫_ℝ = ⟪y, M x⟫_ℝ) → IsSubgrad G xs (-v - g xs) := by
  have hfc : ConvexOn ℝ Set.univ f := by
    refine ⟨convex_univ, fun x _ y _ a b ha hb hab => ?_⟩
    have h1 := hf (a • x + b • y) x
    have h2 := hf (a • x + b • y) y
    have e1 : x - (a • x + b • y) = b • (x - y) := by rw [show a = 1 - b by linarith]; module
    have e2 : y - (a • x + b • y) = -(a • (x - y)) := by rw [show b = 1 - a by linarith]; module
    rw [e1, inner_smul_right] at h1
    rw [e2, inner_neg_right, inner_smul_right] at h2
    have h3 := mul_le_mul_of_nonneg_left h1 ha
    have h4 := mul_le_mul_of_nonneg_left h2 hb
    simp only [smul_eq_mul]
    have h5 : a * f (a • x + b • y) + b * f (a • x + b • y) = f (a • x + b • y) := by rw [← add_mul, hab, one_mul]
    linarith
  obtain ⟨y, h1, h2⟩ := exists_dual M (Φ := ⟨G.dom, fun x => f x + G.val x⟩) ((hfc.subset (Set.subset_univ _) hG.1).add hG) hh hcont hxs hmin
  refine ⟨y, ⟨Set.mem_univ _, fun w _ => h1 w⟩, fun v hv => subgrad_sub_grad hG hq hxs fun x hx => ?_⟩
  have h3 := h2 x hx
  rw [inner_neg_left, hv, map_sub]
  simp only at h3
  linarith

end Copt
