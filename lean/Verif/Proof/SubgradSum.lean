import Verif.Spec.Basic
import Mathlib.Analysis.Convex.Continuous
import Mathlib.Analysis.LocallyConvex.Separation

/-! # Sum rule: a minimiser of `φ + ψ + ⟨G, ·⟩` comes with subgradients of `φ` and `ψ` that add up to `-G` -/

namespace Copt

open Spec

variable {p : ℕ}

/-- Convexity along segments. -/
theorem convexOn_of_segments {φ : (Fin p → ℝ) → ℝ} (h : ∀ x y : Fin p → ℝ, ∀ t : ℝ, 0 ≤ t → t ≤ 1 → φ ((1 - t) • x + t • y) ≤ (1 - t) * φ x + t * φ y) :
    ConvexOn ℝ Set.univ φ := by
  refine ⟨convex_univ, fun x _ y _ a b ha hb hab => ?_⟩
  have := h x y b hb (by linarith)
  rw [show 1 - b = a by linarith] at this
  simpa using this

/-- The sum rule. -/
theorem subgrad_split {φ ψ : (Fin p → ℝ) → ℝ} (hφ : ∀ x y : Fin p → ℝ, ∀ t : ℝ, 0 ≤ t → t ≤ 1 → φ ((1 - t) • x + t • y) ≤ (1 - t) * φ x + t * φ y)
    (hψ : ∀ x y : Fin p → ℝ, ∀ t : ℝ, 0 ≤ t → t ≤ 1 → ψ ((1 - t) • x + t • y) ≤ (1 - t) * ψ x + t * ψ y) (G xs : Fin p → ℝ)
    (hopt : ∀ y, φ xs + ψ xs ≤ φ y + ψ y + dot G (y - xs)) :
    ∃ s t : Fin p → ℝ, (∀ c, s c + t c = -G c) ∧ (∀ y, φ xs + dot s (y - xs) ≤ φ y) ∧ ∀ y, ψ xs + dot t (y - xs) ≤ ψ y := by
  have h1 := convexOn_of_segments hφ
  have h2 := convexOn_of_segments hψ
  have hc : Continuous φ := by
    have := h1.continuousOn isOpen_univ
    rwa [continuousOn_univ] at this
  set k : (Fin p → ℝ) → ℝ := fun y => φ xs + ψ xs - ψ y - dot G (y - xs) with hk
  have hkc : ConcaveOn ℝ Set.univ k := by
    refine ⟨convex_univ, fun x _ y _ a b ha hb hab => ?_⟩
    have h3 := h2.2 (Set.mem_univ x) (Set.mem_univ y) ha hb hab
    have h4 : dot G (a • x + b • y - xs) = a * dot G (x - xs) + b * dot G (y - xs) := by
      simp only [dot, Finset.mul_sum, ← Finset.sum_add_distrib]
      refine Finset.sum_congr rfl fun c _ => ?_
      simp only [Pi.sub_apply, Pi.add_apply, Pi.smul_apply, smul_eq_mul]
      have : xs c = a * xs c + b * xs c := by rw [← add_mul, hab, one_mul]
      linear_combination (-G c) * this
    simp only [hk, smul_eq_mul] at h3 ⊢
    rw [h4]
    have h5 : φ xs + ψ xs = a * (φ xs + ψ xs) + b * (φ xs + ψ xs) := by rw [← add_mul, hab, one_mul]
    linarith
  have hdis : Disjoint {q : (Fin p → ℝ) × ℝ | q.1 ∈ Set.univ ∧ φ q.1 < q.2} {q : (Fin p → ℝ) × ℝ | q.1 ∈ Set.univ ∧ q.2 ≤ k q.1} := by
    rw [Set.disjoint_left]
    rintro ⟨y, t⟩ ⟨-, ha⟩ ⟨-, hb⟩
    have := hopt y
    simp only [hk] at ha hb
    linarith
  have hopen : IsOpen {q : (Fin p → ℝ) × ℝ | q.1 ∈ Set.univ ∧ φ q.1 < q.2} := by
    simp only [Set.mem_univ, true_and]
    exact isOpen_lt (hc.comp continuous_fst) continuous_snd
  obtain ⟨F, u, hF1, hF2⟩ := geometric_hahn_banach_open h1.convex_strict_epigraph hopen hkc.convex_hypograph hdis
  set l : (Fin p → ℝ) →ₗ[ℝ] ℝ := (F : ((Fin p → ℝ) × ℝ) →ₗ[ℝ] ℝ).comp (LinearMap.inl ℝ _ _) with hl
  set m : ℝ := F (0, 1) with hm
  have hF : ∀ y t, F (y, t) = l y + m * t := by
    intro y t
    have : (y, t) = (y, (0 : ℝ)) + t • ((0 : Fin p → ℝ), (1 : ℝ)) := by ext <;> simp
    rw [this, map_add, map_smul, smul_eq_mul, mul_comm]; rfl
  have e0 : u ≤ l xs + m * φ xs := by
    have := hF2 (xs, φ xs) ⟨trivial, by simp [hk, dot]⟩
    rwa [hF] at this
  have hm0 : m < 0 := by
    have := hF1 (xs, φ xs + 1) ⟨trivial, by simp⟩
    rw [hF] at this
    linarith
  have e1 : ∀ y, l y + m * φ y ≤ u := by
    intro y
    refine le_of_forall_pos_lt_add fun ε hε => ?_
    have := hF1 (y, φ y + ε / (-m)) ⟨trivial, by simpa using div_pos hε (neg_pos.mpr hm0)⟩
    rw [hF, mul_add, show m * (ε / -m) = -ε by have := hm0.ne; field_simp] at this
    linarith
  have e2 : ∀ y, u ≤ l y + m * k y := by
    intro y
    have := hF2 (y, k y) ⟨trivial, le_refl _⟩
    rwa [hF] at this
  have hld : ∀ y, dot (fun c => l (Pi.single c 1) / (-m)) y = l y / (-m) := by
    intro y
    have : l y = ∑ c, y c * l (Pi.single c 1) := by
      conv_lhs => rw [pi_eq_sum_univ' y]
      rw [map_sum]
      refine Finset.sum_congr rfl fun c _ => ?_
      rw [map_smul, smul_eq_mul]
    rw [this, div_eq_mul_inv, Finset.sum_mul]
    exact Finset.sum_congr rfl fun c _ => by ring
  refine ⟨fun c => l (Pi.single c 1) / (-m), fun c => -G c - l (Pi.single c 1) / (-m), fun c => by ring, fun y => ?_, fun y => ?_⟩
  · rw [hld, map_sub]
    have h3 : l y + m * φ y ≤ l xs + m * φ xs := (e1 y).trans e0
    rw [← le_sub_iff_add_le', div_le_iff₀ (neg_pos.mpr hm0)]
    linarith
  · have h3 : l xs + m * φ xs ≤ l y + m * k y := (e1 xs).trans (e2 y)
    have h4 : dot (fun c => -G c - l (Pi.single c 1) / (-m)) (y - xs) = -dot G (y - xs) - (l y - l xs) / (-m) := by
      rw [← map_sub, ← hld]
      simp only [dot, ← Finset.sum_neg_distrib, ← Finset.sum_sub_distrib]
      exact Finset.sum_congr rfl fun c _ => by ring
    rw [h4]
    have h5 : k y - φ xs ≤ (l y - l xs) / (-m) := by
      rw [le_div_iff₀ (neg_pos.mpr hm0)]
      linarith
    simp only [hk] at h5
    linarith

end Copt
