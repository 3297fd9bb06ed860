import Verif.Model.FloatPrimalDual
import Verif.Proof.InexactPrimalDual
import Verif.Proof.FloatSplit

/-!
# Errors of one iteration of the primal-dual method with rounded arithmetic
-/

set_option linter.unusedSectionVars false

namespace Copt

open Spec

open scoped InnerProductSpace

variable {d p : ℕ}

local notation "ℓ²" => EuclideanSpace ℝ (Fin d)
local notation "ℓ²p" => EuclideanSpace ℝ (Fin p)

/-- One iteration: precision, state and computed values. -/
structure PdIter (d p : ℕ) where
  rd : ℝ → ℝ
  w : ℝ
  x : Fin d → ℝ
  y : Fin p → ℝ
  grad : Fin d → ℝ
  mx : Fin p → ℝ
  q : Fin p → ℝ
  my : Fin d → ℝ
  xNext : Fin d → ℝ
  nX : ℝ
  nY : ℝ

namespace PdIter

variable (τ σ : ℝ) (i : PdIter d p)

/-- The argument of the conjugate operator. -/
def point : Fin p → ℝ := flPdPoint i.rd τ i.y i.mx

/-- The argument of the second proximal operator. -/
noncomputable def scaled : Fin p → ℝ := flPdScaled i.rd τ (i.point τ)

/-- The new dual variable. -/
def yNext : Fin p → ℝ := flPdConj i.rd τ (i.point τ) i.q

/-- The extrapolated dual variable. -/
def bar : Fin p → ℝ := flPdBar i.rd (i.yNext τ) i.y

/-- The argument of the first proximal operator. -/
def arg : Fin d → ℝ := flPdArg i.rd σ i.x i.my i.grad

/-- The values are computed with errors of the order of the precision, from a bounded state. -/
structure Ok (M : ℓ² →ₗ[ℝ] ℓ²p) (Mt : ℓ²p →ₗ[ℝ] ℓ²) (g : ℓ² → ℓ²) (p1 : ℓ² → ℝ → ℓ²) (p2 : ℓ²p → ℝ → ℓ²p) (σ τ K B : ℝ) (i : PdIter d p) : Prop where
  scale : ∃ u eta, Scale i.rd u eta i.w 1
  param : 0 < i.rd (1 / τ)
  grad : ∀ j, |i.grad j - g (WithLp.toLp 2 i.x) j| ≤ K * i.w * (1 + norm2 i.x)
  mx : ∀ j, |i.mx j - M (WithLp.toLp 2 i.x) j| ≤ K * i.w * (1 + norm2 i.x)
  q : ∀ j, |i.q j - p2 (WithLp.toLp 2 (i.scaled τ)) (i.rd (1 / τ)) j| ≤ K * i.w * (1 + norm2 (i.scaled τ))
  my : ∀ j, |i.my j - Mt (WithLp.toLp 2 (i.bar τ)) j| ≤ K * i.w * (1 + norm2 (i.bar τ))
  xNext : ∀ j, |i.xNext j - p1 (WithLp.toLp 2 (i.arg σ)) σ j| ≤ K * i.w * (1 + norm2 (i.arg σ))
  nX : |i.nX - norm2 (fun j => i.rd (i.xNext j - i.x j))| ≤ K * i.w * (1 + norm2 (fun j => i.rd (i.xNext j - i.x j)))
  nY : |i.nY - norm2 (fun j => i.rd (i.yNext τ j - i.y j))| ≤ K * i.w * (1 + norm2 (fun j => i.rd (i.yNext τ j - i.y j)))
  x_le : norm2 i.x ≤ B
  y_le : norm2 i.y ≤ B

/-- The state as a pair of vectors. -/
def state : ℓ² × ℓ²p := (WithLp.toLp 2 i.x, WithLp.toLp 2 i.y)

/-- What one iteration computes. -/
structure Local (M : ℓ² →ₗ[ℝ] ℓ²p) (Mt : ℓ²p →ₗ[ℝ] ℓ²) (g : ℓ² → ℓ²) (p1 : ℓ² → ℝ → ℓ²) (p2 : ℓ²p → ℝ → ℓ²p) (σ τ c : ℝ) (i : PdIter d p) : Prop where
  scaled_le : norm2 (i.scaled τ) ≤ c
  arg_le : norm2 (i.arg σ) ≤ c
  x : ‖(WithLp.toLp 2 i.xNext : ℓ²) - pdX p1 p2 g M Mt σ τ i.state‖ ≤ c * i.w
  y : ‖(WithLp.toLp 2 (i.yNext τ) : ℓ²p) - pdY p2 M τ i.state‖ ≤ c * i.w
  exact_le : ‖pdX p1 p2 g M Mt σ τ i.state‖ ≤ c
  cert : |i.rd (i.nX + i.nY) - (‖pdX p1 p2 g M Mt σ τ i.state - i.state.1‖ + ‖pdY p2 M τ i.state - i.state.2‖)| ≤ c * i.w

end PdIter

theorem adjoint_bound {M : ℓ² →ₗ[ℝ] ℓ²p} {Mt : ℓ²p →ₗ[ℝ] ℓ²} (hadj : ∀ x y, ⟪M x, y⟫_ℝ = ⟪x, Mt y⟫_ℝ) {m : ℝ} (hm0 : 0 ≤ m) (hm : ∀ x, ‖M x‖ ≤ m * ‖x‖) (y : ℓ²p) : ‖Mt y‖ ≤ m * ‖y‖ := by
  rcases eq_or_lt_of_le (norm_nonneg (Mt y)) with h0 | h0
  · rw [← h0]; positivity
  · have h1 : ‖Mt y‖ ^ 2 = ⟪M (Mt y), y⟫_ℝ := by rw [hadj, real_inner_self_eq_norm_sq]
    have h2 := (real_inner_le_norm (M (Mt y)) y).trans (mul_le_mul_of_nonneg_right (hm (Mt y)) (norm_nonneg y))
    rw [← h1] at h2
    refine le_of_mul_le_mul_right ?_ h0
    linarith

set_option maxHeartbeats 1600000 in
theorem pd_local {G : ExtFun ℓ²} {H : ExtFun ℓ²p} (hG : G.IsConvex) (hH : H.IsConvex) {p1 : ℓ² → ℝ → ℓ²} {p2 : ℓ²p → ℝ → ℓ²p} (h1 : IsProxOf G p1) (h2 : IsProxOf H p2)
    {M : ℓ² →ₗ[ℝ] ℓ²p} {Mt : ℓ²p →ₗ[ℝ] ℓ²} {g : ℓ² → ℓ²} {L m σ τ K B : ℝ} (hL : 0 ≤ L) (hg : ∀ x y, ‖g x - g y‖ ≤ L * ‖x - y‖) (hm0 : 0 ≤ m) (hm : ∀ x, ‖M x‖ ≤ m * ‖x‖)
    (hmt : ∀ y, ‖Mt y‖ ≤ m * ‖y‖) (hσ : 0 < σ) (hτ : 0 < τ) (hK : 0 ≤ K) : ∃ c, 0 ≤ c ∧ ∀ i : PdIter d p, i.Ok M Mt g p1 p2 σ τ K B → i.Local M Mt g p1 p2 σ τ c := by
  have hd0 : (0 : ℝ) ≤ d := Nat.cast_nonneg d
  have hp0 : (0 : ℝ) ≤ p := Nat.cast_nonneg p
  have ht : 0 < 1 / τ := by positivity
  have n1 : ∀ x y, ‖p1 x σ - p1 y σ‖ ≤ 1 * ‖x - y‖ := fun x y => by rw [one_mul]; exact (h1 _ σ hσ).nonexpansive hG hσ (h1 _ σ hσ)
  have n2 : ∀ x y, ‖p2 x (1 / τ) - p2 y (1 / τ)‖ ≤ 1 * ‖x - y‖ := fun x y => by rw [one_mul]; exact (h2 _ _ ht).nonexpansive hH ht (h2 _ _ ht)
  have lM : ∀ x y, ‖M x - M y‖ ≤ m * ‖x - y‖ := fun x y => by rw [← map_sub]; exact hm _
  have lMt : ∀ x y, ‖Mt x - Mt y‖ ≤ m * ‖x - y‖ := fun x y => by rw [← map_sub]; exact hmt _
  let ι := {i : PdIter d p // i.Ok M Mt g p1 p2 σ τ K B}
  let w : ι → ℝ := fun i => i.1.w
  have hw0 : ∀ i : ι, 0 ≤ w i := fun i => by obtain ⟨u, eta, h⟩ := i.2.scale; exact h.w_nonneg
  have hw1 : ∀ i : ι, w i ≤ 1 := fun i => by obtain ⟨u, eta, h⟩ := i.2.scale; exact h.w_le
  have hfl : FlFam (fun i : ι => i.1.rd) w := ⟨hw0, hw1, fun i x => by
    obtain ⟨u, eta, h⟩ := i.2.scale
    have a := h.rnd.err x
    have b := mul_le_mul_of_nonneg_right h.u_le (abs_nonneg x)
    have := h.eta_le'
    show |i.1.rd x - x| ≤ i.1.w * |x| + i.1.w
    linarith⟩
  have ax : ApprN w (fun i : ι => (WithLp.toLp 2 i.1.x : ℓ²)) (fun i => i.1.state.1) := .refl_of_le hw0 (C := B) fun i => by rw [toLp_norm]; exact i.2.x_le
  have ay : ApprN w (fun i : ι => (WithLp.toLp 2 i.1.y : ℓ²p)) (fun i => i.1.state.2) := .refl_of_le hw0 (C := B) fun i => by rw [toLp_norm]; exact i.2.y_le
  have ag : ApprN w (fun i : ι => (WithLp.toLp 2 i.1.grad : ℓ²)) (fun i => g i.1.state.1) :=
    ax.map hw0 hw1 (g := fun i _ => (WithLp.toLp 2 i.1.grad : ℓ²)) (f := g) (K := d * K) (by positivity) hL (fun i => by
      refine (coord_norm i.2.grad).trans (le_of_eq ?_)
      rw [toLp_norm]; ring) hg
  have amx : ApprN w (fun i : ι => (WithLp.toLp 2 i.1.mx : ℓ²p)) (fun i => M i.1.state.1) :=
    ax.map hw0 hw1 (g := fun i _ => (WithLp.toLp 2 i.1.mx : ℓ²p)) (f := M) (K := p * K) (by positivity) hm0 (fun i => by
      refine (coord_norm i.2.mx).trans (le_of_eq ?_)
      rw [toLp_norm]; ring) lM
  -- the dual step
  have av : ApprN w (fun i : ι => (WithLp.toLp 2 (i.1.point τ) : ℓ²p)) (fun i => i.1.state.2 + τ • M i.1.state.1) := (ay.add ((amx.smul τ).round hfl)).round hfl
  have asc : ApprN w (fun i : ι => (WithLp.toLp 2 (i.1.scaled τ) : ℓ²p)) (fun i => τ⁻¹ • (i.1.state.2 + τ • M i.1.state.1)) := ((av.smul τ⁻¹).congr_left (fun i => by
      show (WithLp.toLp 2 (fun j => i.1.point τ j / τ) : ℓ²p) = _
      ext j
      show i.1.point τ j / τ = τ⁻¹ * i.1.point τ j
      rw [div_eq_inv_mul])).round hfl
  obtain ⟨b, hb⟩ : ∃ b, b = ‖p2 0 (1 / τ)‖ := ⟨_, rfl⟩
  have hb0 : 0 ≤ b := by rw [hb]; positivity
  have aq : ApprN w (fun i : ι => (WithLp.toLp 2 i.1.q : ℓ²p)) (fun i => p2 (τ⁻¹ • (i.1.state.2 + τ • M i.1.state.1)) (1 / τ)) :=
    asc.map hw0 hw1 (g := fun i _ => (WithLp.toLp 2 i.1.q : ℓ²p)) (f := fun v => p2 v (1 / τ)) (K := p * K + (1 + τ) * (2 + b)) (M := 1) (by positivity) zero_le_one (fun i => by
      obtain ⟨v, hv⟩ : ∃ v : ℓ²p, v = WithLp.toLp 2 (i.1.scaled τ) := ⟨_, rfl⟩
      have e1 := coord_norm i.2.q
      rw [← toLp_norm, ← hv] at e1
      have e2 := prox_param hH ht i.2.param (h2 v _ ht) (h2 v _ i.2.param)
      have e3 : |i.1.rd (1 / τ) / (1 / τ) - 1| ≤ (1 + τ) * i.1.w := by
        have := hfl.round i (1 / τ)
        rw [abs_of_pos ht] at this
        have e : i.1.rd (1 / τ) / (1 / τ) - 1 = τ * (i.1.rd (1 / τ) - 1 / τ) := by field_simp
        rw [e, abs_mul, abs_of_pos hτ]
        have h3 := mul_le_mul_of_nonneg_left this hτ.le
        have e4 : τ * (w i * (1 / τ) + w i) = (1 + τ) * w i := by field_simp
        linarith
      have e5 : ‖v - p2 v (1 / τ)‖ ≤ (2 + b) * (1 + ‖v‖) := by
        have t1 := norm_sub_le v (p2 v (1 / τ))
        have t2 := norm_add_le (p2 v (1 / τ) - p2 0 (1 / τ)) (p2 0 (1 / τ))
        rw [sub_add_cancel, ← hb] at t2
        have t3 := n2 v 0
        rw [sub_zero] at t3
        have t4 := mul_nonneg hb0 (norm_nonneg v)
        linarith
      have e6 := mul_le_mul e3 e5 (norm_nonneg _) (by have := hw0 i; positivity)
      have e7 := norm_sub_le_norm_sub_add_norm_sub (WithLp.toLp 2 i.1.q : ℓ²p) (p2 v (i.1.rd (1 / τ))) (p2 v (1 / τ))
      rw [norm_sub_rev (p2 v (i.1.rd (1 / τ)))] at e7
      rw [← hv]
      show ‖(WithLp.toLp 2 i.1.q : ℓ²p) - p2 v (1 / τ)‖ ≤ (p * K + (1 + τ) * (2 + b)) * i.1.w * (1 + ‖v‖)
      linarith) n2
  have ayn : ApprN w (fun i : ι => (WithLp.toLp 2 (i.1.yNext τ) : ℓ²p)) (fun i => pdY p2 M τ i.1.state) := (av.sub ((aq.smul τ).round hfl)).round hfl
  -- the primal step
  have abar : ApprN w (fun i : ι => (WithLp.toLp 2 (i.1.bar τ) : ℓ²p)) (fun i => (2 : ℝ) • pdY p2 M τ i.1.state - i.1.state.2) := (((ayn.smul 2).round hfl).sub ay).round hfl
  have amy : ApprN w (fun i : ι => (WithLp.toLp 2 i.1.my : ℓ²)) (fun i => Mt ((2 : ℝ) • pdY p2 M τ i.1.state - i.1.state.2)) :=
    abar.map hw0 hw1 (g := fun i _ => (WithLp.toLp 2 i.1.my : ℓ²)) (f := Mt) (K := d * K) (by positivity) hm0 (fun i => by
      refine (coord_norm i.2.my).trans (le_of_eq ?_)
      rw [toLp_norm]; ring) lMt
  have aarg : ApprN w (fun i : ι => (WithLp.toLp 2 (i.1.arg σ) : ℓ²)) (fun i => i.1.state.1 - σ • (Mt ((2 : ℝ) • pdY p2 M τ i.1.state - i.1.state.2) + g i.1.state.1)) :=
    ((ax.sub (((amy.add ag).round hfl).smul σ |>.round hfl))).round hfl
  have axn : ApprN w (fun i : ι => (WithLp.toLp 2 i.1.xNext : ℓ²)) (fun i => pdX p1 p2 g M Mt σ τ i.1.state) :=
    aarg.map hw0 hw1 (g := fun i _ => (WithLp.toLp 2 i.1.xNext : ℓ²)) (f := fun v => p1 v σ) (K := d * K) (M := 1) (by positivity) zero_le_one (fun i => by
      refine (coord_norm i.2.xNext).trans (le_of_eq ?_)
      rw [toLp_norm]; ring) n1
  -- the certificate
  have anX : Appr w (fun i : ι => i.1.nX) (fun i => ‖pdX p1 p2 g M Mt σ τ i.1.state - i.1.state.1‖) :=
    ApprN.map (E' := ℝ) hw0 hw1 (g := fun i _ => i.1.nX) (f := fun v : ℓ² => ‖v‖) (K := K) (M := 1) hK zero_le_one (fun i => by
      rw [Real.norm_eq_abs]
      have := i.2.nX
      rw [← toLp_norm] at this
      exact this) (fun x y => by rw [Real.norm_eq_abs, one_mul]; exact abs_norm_sub_norm_le x y) ((axn.sub ax).round hfl)
  have anY : Appr w (fun i : ι => i.1.nY) (fun i => ‖pdY p2 M τ i.1.state - i.1.state.2‖) :=
    ApprN.map (E' := ℝ) hw0 hw1 (g := fun i _ => i.1.nY) (f := fun v : ℓ²p => ‖v‖) (K := K) (M := 1) hK zero_le_one (fun i => by
      rw [Real.norm_eq_abs]
      have := i.2.nY
      rw [← toLp_norm] at this
      exact this) (fun x y => by rw [Real.norm_eq_abs, one_mul]; exact abs_norm_sub_norm_le x y) ((ayn.sub ay).round hfl)
  have acert := (anX.add anY).round hfl
  obtain ⟨c1, hc1, q1⟩ := asc.bound hw1
  obtain ⟨c2, hc2, q2⟩ := aarg.bound hw1
  obtain ⟨c3, hc3, q3⟩ := axn
  obtain ⟨c4, hc4, q4⟩ := ayn
  obtain ⟨c5, hc5, q5⟩ := acert
  refine ⟨c1 + c2 + c3 + c4 + c5, by positivity, fun i hi => ?_⟩
  have hwi : 0 ≤ i.w := hw0 ⟨i, hi⟩
  have le : ∀ {a c : ℝ}, a ≤ c * i.w → c ≤ c1 + c2 + c3 + c4 + c5 → a ≤ (c1 + c2 + c3 + c4 + c5) * i.w := fun h h' => h.trans (mul_le_mul_of_nonneg_right h' hwi)
  refine ⟨?_, ?_, le (q3 ⟨i, hi⟩).1 (by linarith), le (q4 ⟨i, hi⟩).1 (by linarith), (q3 ⟨i, hi⟩).2.trans (by linarith), le (q5 ⟨i, hi⟩).1 (by linarith)⟩
  · have := q1 ⟨i, hi⟩
    rw [toLp_norm] at this
    linarith
  · have := q2 ⟨i, hi⟩
    rw [toLp_norm] at this
    linarith

end Copt
