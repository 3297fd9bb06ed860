import Verif.Props.FloatConstrained
import Verif.Props.ThreeSplit
import Verif.Proof.Appr

/-!
# Inexact iterations of averaged operators, and families of vectors computed with rounded arithmetic
-/

set_option linter.unusedSectionVars false

namespace Copt

open Spec

open scoped InnerProductSpace

/-! ### Iterations with errors -/

section Averaged

variable {E : Type} [SeminormedAddCommGroup E] {T : E → E} {vs : E} {α : ℝ}

/-- Residual of the exact iteration. -/
theorem averaged_residual (hα : 0 < α) (hT : ∀ v v', ‖T v - T v'‖ ≤ ‖v - v'‖) (hfej : ∀ v, ‖T v - vs‖ ^ 2 ≤ ‖v - vs‖ ^ 2 - α * ‖T v - v‖ ^ 2) (v : E) (k : ℕ) :
    α * (k + 1) * ‖T (T^[k] v) - T^[k] v‖ ^ 2 + ‖T^[k + 1] v - vs‖ ^ 2 ≤ ‖v - vs‖ ^ 2 := by
  induction k with
  | zero =>
    have := hfej v
    simp only [Nat.cast_zero, zero_add, mul_one, Function.iterate_zero, id, Function.iterate_one]
    linarith
  | succ k ih =>
    have h1 := hfej (T^[k + 1] v)
    have e : T^[k + 1] v = T (T^[k] v) := Function.iterate_succ_apply' T k v
    have e' : T^[k + 1 + 1] v = T (T^[k + 1] v) := Function.iterate_succ_apply' T (k + 1) v
    have h2 : ‖T (T^[k + 1] v) - T^[k + 1] v‖ ≤ ‖T (T^[k] v) - T^[k] v‖ := by
      have := hT (T (T^[k] v)) (T^[k] v)
      rwa [← e] at this ⊢
    have h3 : ‖T (T^[k + 1] v) - T^[k + 1] v‖ ^ 2 ≤ ‖T (T^[k] v) - T^[k] v‖ ^ 2 := pow_le_pow_left₀ (norm_nonneg _) h2 2
    have h4 : α * (k + 1) * ‖T (T^[k + 1] v) - T^[k + 1] v‖ ^ 2 ≤ α * (k + 1) * ‖T (T^[k] v) - T^[k] v‖ ^ 2 := mul_le_mul_of_nonneg_left h3 (by positivity)
    rw [e']
    push_cast
    linarith

/-- An iteration with errors `e` as long as it stays near the fixed point. -/
theorem inexact_averaged (hα : 0 < α) (hT : ∀ v v', ‖T v - T v'‖ ≤ ‖v - v'‖) (hfej : ∀ v, ‖T v - vs‖ ^ 2 ≤ ‖v - vs‖ ^ 2 - α * ‖T v - v‖ ^ 2) {v : ℕ → E} {ρ e : ℝ} (he : 0 ≤ e) {N : ℕ}
    (hN : N * e ≤ 1) (h0 : ‖v 0 - vs‖ ≤ ρ) (hv : ∀ k < N, (∀ i ≤ k, ‖v i - vs‖ ≤ ρ + 1) → ‖v (k + 1) - T (v k)‖ ≤ e) :
    ∀ k ≤ N, ‖v k - vs‖ ≤ ρ + 1 ∧ ‖T (v k) - v k‖ ≤ ρ / √(α * (k + 1)) + 2 * (k * e) := by
  have hρ : 0 ≤ ρ := (norm_nonneg _).trans h0
  have key : ∀ k ≤ N, ‖v k - T^[k] (v 0)‖ ≤ k * e := by
    intro k
    induction k using Nat.strong_induction_on with
    | _ k ih =>
    intro hk
    rcases k with _ | k
    · simp
    · have hnear : ∀ i ≤ k, ‖v i - vs‖ ≤ ρ + 1 := by
        intro i hi
        have h1 := ih i (by omega) (by omega)
        have h2 := averaged_near hα hfej (v 0) i
        have h3 := norm_sub_le_norm_sub_add_norm_sub (v i) (T^[i] (v 0)) vs
        have h4 : (i : ℝ) * e ≤ N * e := mul_le_mul_of_nonneg_right (by exact_mod_cast (by omega : i ≤ N)) he
        linarith
      have h1 := hv k (by omega) hnear
      have h2 := ih k (by omega) (by omega)
      have h3 := hT (v k) (T^[k] (v 0))
      rw [Function.iterate_succ_apply']
      have h4 := norm_sub_le_norm_sub_add_norm_sub (v (k + 1)) (T (v k)) (T (T^[k] (v 0)))
      push_cast
      linarith
  intro k hk
  have h1 := key k hk
  have h4 : (k : ℝ) * e ≤ N * e := mul_le_mul_of_nonneg_right (by exact_mod_cast hk) he
  have h2 := averaged_near hα hfej (v 0) k
  have h3 := norm_sub_le_norm_sub_add_norm_sub (v k) (T^[k] (v 0)) vs
  refine ⟨by linarith, ?_⟩
  have h5 := averaged_residual hα hT hfej (v 0) k
  have h6 : ‖T (T^[k] (v 0)) - T^[k] (v 0)‖ ≤ ρ / √(α * (k + 1)) := by
    rw [le_div_iff₀ (by positivity)]
    refine abs_le_of_sq_le_sq' ?_ hρ |>.2
    rw [mul_pow, Real.sq_sqrt (by positivity)]
    have h7 : ‖v 0 - vs‖ ^ 2 ≤ ρ ^ 2 := pow_le_pow_left₀ (norm_nonneg _) h0 2
    have := sq_nonneg ‖T^[k + 1] (v 0) - vs‖
    linarith
  have h8 := hT (v k) (T^[k] (v 0))
  have h9 := norm_sub_le_norm_sub_add_norm_sub (T (v k)) (T (T^[k] (v 0))) (v k)
  have h10 := norm_sub_le_norm_sub_add_norm_sub (T (T^[k] (v 0))) (T^[k] (v 0)) (v k)
  rw [norm_sub_rev (T^[k] (v 0)) (v k)] at h10
  linarith
where
  averaged_near {E : Type} [SeminormedAddCommGroup E] {T : E → E} {vs : E} {α : ℝ} (hα : 0 < α) (hfej : ∀ v, ‖T v - vs‖ ^ 2 ≤ ‖v - vs‖ ^ 2 - α * ‖T v - v‖ ^ 2) (v : E) (k : ℕ) :
      ‖T^[k] v - vs‖ ≤ ‖v - vs‖ := by
    induction k with
    | zero => simp
    | succ k ih =>
      rw [Function.iterate_succ_apply']
      have h1 := hfej (T^[k] v)
      have h2 : 0 ≤ α * ‖T (T^[k] v) - T^[k] v‖ ^ 2 := by positivity
      exact (abs_le_of_sq_le_sq' (by linarith) (norm_nonneg _)).2.trans ih

end Averaged

/-! ### Families of vectors -/

section Families

variable {ι E E' : Type} [NormedAddCommGroup E] [NormedSpace ℝ E] [NormedAddCommGroup E'] [NormedSpace ℝ E']

/-- `a` approximates the bounded family `b` of vectors with precision of the order of `w`. -/
def ApprN (w : ι → ℝ) (a b : ι → E) : Prop := ∃ C, 0 ≤ C ∧ ∀ i, ‖a i - b i‖ ≤ C * w i ∧ ‖b i‖ ≤ C

namespace ApprN

variable {w : ι → ℝ} {a b a' b' : ι → E}

theorem refl_of_le (hw : ∀ i, 0 ≤ w i) {C : ℝ} (h : ∀ i, ‖b i‖ ≤ C) : ApprN w b b :=
  ⟨|C|, abs_nonneg _, fun i => ⟨by rw [sub_self, norm_zero]; exact mul_nonneg (abs_nonneg _) (hw i), (h i).trans (le_abs_self C)⟩⟩

theorem bound (hw1 : ∀ i, w i ≤ 1) (h : ApprN w a b) : ∃ C, 0 ≤ C ∧ ∀ i, ‖a i‖ ≤ C := by
  obtain ⟨C, hC, h⟩ := h
  refine ⟨C + C, by positivity, fun i => ?_⟩
  have h1 := norm_add_le (a i - b i) (b i)
  rw [sub_add_cancel] at h1
  have h3 : C * w i ≤ C * 1 := mul_le_mul_of_nonneg_left (hw1 i) hC
  linarith [(h i).1, (h i).2]

theorem add (h : ApprN w a b) (h' : ApprN w a' b') : ApprN w (fun i => a i + a' i) (fun i => b i + b' i) := by
  obtain ⟨C, hC, h⟩ := h
  obtain ⟨C', hC', h'⟩ := h'
  refine ⟨C + C', by positivity, fun i => ⟨?_, (norm_add_le _ _).trans (add_le_add (h i).2 (h' i).2)⟩⟩
  have := norm_add_le (a i - b i) (a' i - b' i)
  rw [show a i - b i + (a' i - b' i) = a i + a' i - (b i + b' i) by abel] at this
  linarith [(h i).1, (h' i).1]

theorem smul (c : ℝ) (h : ApprN w a b) : ApprN w (fun i => c • a i) (fun i => c • b i) := by
  obtain ⟨C, hC, h⟩ := h
  refine ⟨|c| * C, by positivity, fun i => ?_⟩
  rw [← smul_sub, norm_smul, norm_smul, Real.norm_eq_abs, mul_assoc]
  exact ⟨mul_le_mul_of_nonneg_left (h i).1 (abs_nonneg _), mul_le_mul_of_nonneg_left (h i).2 (abs_nonneg _)⟩

theorem sub (h : ApprN w a b) (h' : ApprN w a' b') : ApprN w (fun i => a i - a' i) (fun i => b i - b' i) := by
  have := h.add (h'.smul (-1))
  simpa only [neg_smul, one_smul, ← sub_eq_add_neg] using this

theorem trans (hw : ∀ i, 0 ≤ w i) (h : ApprN w a b) (h' : ApprN w b b') : ApprN w a b' := by
  obtain ⟨C, hC, h⟩ := h
  obtain ⟨C', hC', h'⟩ := h'
  refine ⟨C + C', by positivity, fun i => ⟨?_, by linarith [(h' i).2]⟩⟩
  have := norm_sub_le_norm_sub_add_norm_sub (a i) (b i) (b' i)
  linarith [(h i).1, (h' i).1]

/-- A map close to a Lipschitz one. -/
theorem map (hw : ∀ i, 0 ≤ w i) (hw1 : ∀ i, w i ≤ 1) {g : ι → E → E'} {f : E → E'} {K M : ℝ} (hK : 0 ≤ K) (hM : 0 ≤ M) (hg : ∀ i, ‖g i (a i) - f (a i)‖ ≤ K * w i * (1 + ‖a i‖))
    (hf : ∀ x y, ‖f x - f y‖ ≤ M * ‖x - y‖) (h : ApprN w a b) : ApprN w (fun i => g i (a i)) (fun i => f (b i)) := by
  obtain ⟨D, hD, hbd⟩ := h.bound hw1
  obtain ⟨C, hC, h⟩ := h
  refine ⟨K * (1 + D) + M * C + ‖f 0‖, by positivity, fun i => ⟨?_, ?_⟩⟩
  · have h1 := hg i
    have h2 : K * w i * (1 + ‖a i‖) ≤ K * w i * (1 + D) := mul_le_mul_of_nonneg_left (by linarith [hbd i]) (mul_nonneg hK (hw i))
    have h3 := hf (a i) (b i)
    have h4 := mul_le_mul_of_nonneg_left (h i).1 hM
    have h5 : 0 ≤ ‖f 0‖ * w i := mul_nonneg (norm_nonneg _) (hw i)
    have h6 := norm_sub_le_norm_sub_add_norm_sub (g i (a i)) (f (a i)) (f (b i))
    linarith
  · have h3 := hf (b i) 0
    rw [sub_zero] at h3
    have h4 := mul_le_mul_of_nonneg_left (h i).2 hM
    have h6 : 0 ≤ K * (1 + D) := by positivity
    have h7 := norm_add_le (f (b i) - f 0) (f 0)
    rw [sub_add_cancel] at h7
    linarith

theorem congr_left (h : ApprN w a b) (e : ∀ i, a' i = a i) : ApprN w a' b := by
  have : a' = a := funext e
  rwa [this]

theorem lip (hw : ∀ i, 0 ≤ w i) (hw1 : ∀ i, w i ≤ 1) {f : E → E'} {M : ℝ} (hM : 0 ≤ M) (hf : ∀ x y, ‖f x - f y‖ ≤ M * ‖x - y‖) (h : ApprN w a b) :
    ApprN w (fun i => f (a i)) (fun i => f (b i)) :=
  h.map hw hw1 (g := fun _ => f) le_rfl hM (fun i => by simp) hf

end ApprN

variable {d : ℕ}

local notation "ℓ²" => EuclideanSpace ℝ (Fin d)

/-- Rounding every entry. -/
theorem ApprN.round {fl : ι → ℝ → ℝ} {w : ι → ℝ} (hf : FlFam fl w) {a : ι → Fin d → ℝ} {b : ι → ℓ²} (h : ApprN w (fun i => (WithLp.toLp 2 (a i) : ℓ²)) b) :
    ApprN w (fun i => (WithLp.toLp 2 (fun j => fl i (a i j)) : ℓ²)) b := by
  have := h.map hf.nonneg hf.le (g := fun i v => (WithLp.toLp 2 (fun j => fl i (v j)) : ℓ²)) (f := id) (K := d) (M := 1) (Nat.cast_nonneg d) zero_le_one (fun i => ?_) (fun x y => by simp)
  · exact this
  · rw [mul_assoc]
    refine norm_le_of_coord _ fun j => ?_
    have h1 := hf.round i (a i j)
    have h2 := mul_le_mul_of_nonneg_left (coord_le_norm (WithLp.toLp 2 (a i) : ℓ²) j) (hf.nonneg i)
    show |fl i (a i j) - a i j| ≤ _
    have h3 : |(WithLp.toLp 2 (a i) : ℓ²) j| = |a i j| := rfl
    rw [h3] at h2
    linarith

end Families

/-! ### The operator of the three operator splitting -/

section DavisYin

variable {E : Type} [NormedAddCommGroup E] [InnerProductSpace ℝ E]

/-- The scaled subgradient which belongs to the point `v`. -/
noncomputable def dyU (p2 : E → ℝ → E) (s : ℝ) (v : E) : E := s⁻¹ • (v - p2 v s)

/-- The new point of the first proximal operator. -/
noncomputable def dyX (p1 p2 : E → ℝ → E) (g : E → E) (s : ℝ) (v : E) : E := p1 (p2 v s - s • (dyU p2 s v + g (p2 v s))) s

/-- The operator on the internal point. -/
noncomputable def dyT (p1 p2 : E → ℝ → E) (g : E → E) (s : ℝ) (v : E) : E := dyX p1 p2 g s v + s • dyU p2 s v

variable {G H : ExtFun E} {f : E → ℝ} {g : E → E} {p1 p2 : E → ℝ → E} {L s : ℝ}

theorem dyU_point (hs : 0 < s) (v : E) : p2 v s + s • dyU p2 s v = v := by
  unfold dyU
  rw [smul_smul, mul_inv_cancel₀ hs.ne', one_smul]; abel

theorem dyT_sub (hs : 0 < s) (v : E) : dyT p1 p2 g s v - v = dyX p1 p2 g s v - p2 v s := by
  have h := dyU_point (p2 := p2) hs v
  unfold dyT
  conv_lhs => rw [sub_eq_add_neg]; arg 2; rw [← h]
  abel

theorem dyU_subgrad (hH : H.IsConvex) (h2 : IsProxOf H p2) (hs : 0 < s) (v : E) : IsSubgrad H (p2 v s) (dyU p2 s v) := (h2 v s hs).subgrad hH hs

theorem dyT_pair (hG : G.IsConvex) (hH : H.IsConvex) (h1 : IsProxOf G p1) (h2 : IsProxOf H p2) (hL : 0 < L) (hs : 0 < s) (hf : ConvexGrad f g) (hq : UpperQuad f g L) (v v' : E) :
    ‖dyT p1 p2 g s v - dyT p1 p2 g s v'‖ ^ 2 ≤ ‖v - v'‖ ^ 2 - (1 - s * L / 2) * ‖(dyT p1 p2 g s v - v) - (dyT p1 p2 g s v' - v')‖ ^ 2 := by
  have h := davis_yin_pair hG hL hs hf hq (dyU_subgrad hH h2 hs v) (dyU_subgrad hH h2 hs v') (h1 _ s hs) (h1 _ s hs)
  rw [dyU_point hs, dyU_point hs] at h
  rw [dyT_sub hs, dyT_sub hs]
  exact h

theorem dyT_nonexpansive (hG : G.IsConvex) (hH : H.IsConvex) (h1 : IsProxOf G p1) (h2 : IsProxOf H p2) (hL : 0 < L) (hs : 0 < s) (hsL : s * L < 2) (hf : ConvexGrad f g) (hq : UpperQuad f g L)
    (v v' : E) : ‖dyT p1 p2 g s v - dyT p1 p2 g s v'‖ ≤ ‖v - v'‖ := by
  have h := dyT_pair hG hH h1 h2 hL hs hf hq v v'
  refine (abs_le_of_sq_le_sq' (h.trans ?_) (norm_nonneg _)).2
  have := mul_nonneg (show 0 ≤ 1 - s * L / 2 by linarith) (sq_nonneg ‖(dyT p1 p2 g s v - v) - (dyT p1 p2 g s v' - v')‖)
  linarith

theorem dyT_fejer (hG : G.IsConvex) (hH : H.IsConvex) (h1 : IsProxOf G p1) (h2 : IsProxOf H p2) (hL : 0 < L) (hs : 0 < s) (hf : ConvexGrad f g) (hq : UpperQuad f g L) {zs us : E}
    (hu : IsSubgrad H zs us) (hg : IsSubgrad G zs (-us - g zs)) (v : E) :
    ‖dyT p1 p2 g s v - (zs + s • us)‖ ^ 2 ≤ ‖v - (zs + s • us)‖ ^ 2 - (1 - s * L / 2) * ‖dyT p1 p2 g s v - v‖ ^ 2 := by
  have hfix : dyT p1 p2 g s (zs + s • us) = zs + s • us := by
    have e1 : p2 (zs + s • us) s = zs := (h2 _ s hs).unique hH hs (hu.prox hs)
    have e2 : dyU p2 s (zs + s • us) = us := by
      unfold dyU
      rw [e1, add_sub_cancel_left, smul_smul, inv_mul_cancel₀ hs.ne', one_smul]
    have e3 : dyX p1 p2 g s (zs + s • us) = zs := by
      unfold dyX
      rw [e1, e2]
      refine (h1 _ s hs).unique hG hs ?_
      have := hg.prox hs
      convert this using 1
      module
    unfold dyT
    rw [e3, e2]
  have h := dyT_pair hG hH h1 h2 hL hs hf hq v (zs + s • us)
  rwa [hfix, sub_self, sub_zero] at h

end DavisYin

end Copt
