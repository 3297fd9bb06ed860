import Verif.Model.FloatSplit
import Verif.Proof.InexactSplit

/-!
# Errors of one iteration of the three operator splitting with rounded arithmetic
-/

set_option linter.unusedSectionVars false

namespace Copt

open Spec

open scoped InnerProductSpace

variable {d : ℕ}

local notation "ℓ²" => EuclideanSpace ℝ (Fin d)

/-- One iteration: precision, state and computed values. -/
structure TsIter (d : ℕ) where
  rd : ℝ → ℝ
  w : ℝ
  grad : Fin d → ℝ
  z : Fin d → ℝ
  u : Fin d → ℝ
  x : Fin d → ℝ
  zNext : Fin d → ℝ
  nrm : ℝ

/-- The values are computed with errors of the order of the precision, from a bounded state. -/
structure TsIter.Ok (g : ℓ² → ℓ²) (p1 p2 : ℓ² → ℝ → ℓ²) (s K B : ℝ) (i : TsIter d) : Prop where
  scale : ∃ u eta, Scale i.rd u eta i.w 1
  grad : ∀ j, |i.grad j - g (WithLp.toLp 2 i.z) j| ≤ K * i.w * (1 + norm2 i.z)
  x : ∀ j, |i.x j - p1 (WithLp.toLp 2 (flTsArg i.rd s i.grad i.z i.u)) s j| ≤ K * i.w * (1 + norm2 (flTsArg i.rd s i.grad i.z i.u))
  zNext : ∀ j, |i.zNext j - p2 (WithLp.toLp 2 (flTsPoint i.rd s i.x i.u)) s j| ≤ K * i.w * (1 + norm2 (flTsPoint i.rd s i.x i.u))
  nrm : |i.nrm - norm2 (fun j => i.rd (i.x j - i.z j))| ≤ K * i.w * (1 + norm2 (fun j => i.rd (i.x j - i.z j)))
  z_le : norm2 i.z ≤ B
  u_le : norm2 i.u ≤ B

/-- What one iteration computes. -/
structure TsIter.Local (g : ℓ² → ℓ²) (p1 p2 : ℓ² → ℝ → ℓ²) (s c : ℝ) (i : TsIter d) : Prop where
  arg_le : norm2 (flTsArg i.rd s i.grad i.z i.u) ≤ c
  point_le : norm2 (flTsPoint i.rd s i.x i.u) ≤ c
  x : ‖(WithLp.toLp 2 i.x : ℓ²) - p1 (WithLp.toLp 2 i.z - s • (WithLp.toLp 2 i.u + g (WithLp.toLp 2 i.z))) s‖ ≤ c * i.w
  point : ‖(WithLp.toLp 2 (flTsPoint i.rd s i.x i.u) : ℓ²) - (p1 (WithLp.toLp 2 i.z - s • (WithLp.toLp 2 i.u + g (WithLp.toLp 2 i.z))) s + s • WithLp.toLp 2 i.u)‖ ≤ c * i.w
  zNext : ‖(WithLp.toLp 2 i.zNext : ℓ²) - p2 (WithLp.toLp 2 (flTsPoint i.rd s i.x i.u)) s‖ ≤ c * i.w
  dual : ‖(WithLp.toLp 2 (flTsDual i.rd s i.u i.x i.zNext) : ℓ²) - dyU p2 s (WithLp.toLp 2 (flTsPoint i.rd s i.x i.u))‖ ≤ c * i.w
  cert : |i.rd (i.nrm / s) - ‖p1 (WithLp.toLp 2 i.z - s • (WithLp.toLp 2 i.u + g (WithLp.toLp 2 i.z))) s - WithLp.toLp 2 i.z‖ / s| ≤ c * i.w

theorem coord_norm {v : Fin d → ℝ} {y : ℓ²} {c : ℝ} (h : ∀ j, |v j - y j| ≤ c) : ‖(WithLp.toLp 2 v : ℓ²) - y‖ ≤ d * c := norm_le_of_coord _ h

set_option maxHeartbeats 800000 in
theorem ts_local {G H : ExtFun ℓ²} (hG : G.IsConvex) (hH : H.IsConvex) {p1 p2 : ℓ² → ℝ → ℓ²} (h1 : IsProxOf G p1) (h2 : IsProxOf H p2) {g : ℓ² → ℓ²} {L s K B : ℝ} (hL : 0 ≤ L)
    (hg : ∀ x y, ‖g x - g y‖ ≤ L * ‖x - y‖) (hs : 0 < s) (hK : 0 ≤ K) : ∃ c, 0 ≤ c ∧ ∀ i : TsIter d, i.Ok g p1 p2 s K B → i.Local g p1 p2 s c := by
  have hd0 : (0 : ℝ) ≤ d := Nat.cast_nonneg d
  have n1 : ∀ x y, ‖p1 x s - p1 y s‖ ≤ 1 * ‖x - y‖ := fun x y => by rw [one_mul]; exact (h1 _ s hs).nonexpansive hG hs (h1 _ s hs)
  have n2 : ∀ x y, ‖p2 x s - p2 y s‖ ≤ 1 * ‖x - y‖ := fun x y => by rw [one_mul]; exact (h2 _ s hs).nonexpansive hH hs (h2 _ s hs)
  let ι := {i : TsIter d // i.Ok g p1 p2 s K B}
  let w : ι → ℝ := fun i => i.1.w
  have hw0 : ∀ i : ι, 0 ≤ w i := fun i => by obtain ⟨u, eta, h⟩ := i.2.scale; exact h.w_nonneg
  have hw1 : ∀ i : ι, w i ≤ 1 := fun i => by obtain ⟨u, eta, h⟩ := i.2.scale; exact h.w_le
  have hfl : FlFam (fun i : ι => i.1.rd) w := ⟨hw0, hw1, fun i x => by
    obtain ⟨u, eta, h⟩ := i.2.scale
    have a := h.rnd.err x
    have b := mul_le_mul_of_nonneg_right h.u_le (abs_nonneg x)
    have := h.eta_le'
    show |i.1.rd x - x| ≤ i.1.w * |x| + i.1.w
    linarith⟩
  have az : ApprN w (fun i : ι => (WithLp.toLp 2 i.1.z : ℓ²)) (fun i => WithLp.toLp 2 i.1.z) := .refl_of_le hw0 (C := B) fun i => by rw [toLp_norm]; exact i.2.z_le
  have au : ApprN w (fun i : ι => (WithLp.toLp 2 i.1.u : ℓ²)) (fun i => WithLp.toLp 2 i.1.u) := .refl_of_le hw0 (C := B) fun i => by rw [toLp_norm]; exact i.2.u_le
  -- the gradient
  have ag : ApprN w (fun i : ι => (WithLp.toLp 2 i.1.grad : ℓ²)) (fun i => g (WithLp.toLp 2 i.1.z)) :=
    az.map hw0 hw1 (g := fun i _ => (WithLp.toLp 2 i.1.grad : ℓ²)) (f := g) (K := d * K) (by positivity) hL (fun i => by
      refine (coord_norm i.2.grad).trans (le_of_eq ?_)
      rw [toLp_norm]; ring) hg
  have a1 := (((az.sub (((au.add ag).round hfl).smul s |>.round hfl))).round hfl)
  have aarg : ApprN w (fun i : ι => (WithLp.toLp 2 (flTsArg i.1.rd s i.1.grad i.1.z i.1.u) : ℓ²)) (fun i => WithLp.toLp 2 i.1.z - s • (WithLp.toLp 2 i.1.u + g (WithLp.toLp 2 i.1.z))) := a1
  have ax : ApprN w (fun i : ι => (WithLp.toLp 2 i.1.x : ℓ²)) (fun i => p1 (WithLp.toLp 2 i.1.z - s • (WithLp.toLp 2 i.1.u + g (WithLp.toLp 2 i.1.z))) s) :=
    aarg.map hw0 hw1 (g := fun i _ => (WithLp.toLp 2 i.1.x : ℓ²)) (f := fun v => p1 v s) (K := d * K) (M := 1) (by positivity) zero_le_one (fun i => by
      refine (coord_norm i.2.x).trans (le_of_eq ?_)
      rw [toLp_norm]; ring) n1
  have apt : ApprN w (fun i : ι => (WithLp.toLp 2 (flTsPoint i.1.rd s i.1.x i.1.u) : ℓ²))
      (fun i => p1 (WithLp.toLp 2 i.1.z - s • (WithLp.toLp 2 i.1.u + g (WithLp.toLp 2 i.1.z))) s + s • WithLp.toLp 2 i.1.u) := ((ax.add ((au.smul s).round hfl)).round hfl)
  obtain ⟨cv, hcv, hv⟩ := apt.bound hw1
  have av : ApprN w (fun i : ι => (WithLp.toLp 2 (flTsPoint i.1.rd s i.1.x i.1.u) : ℓ²)) (fun i => WithLp.toLp 2 (flTsPoint i.1.rd s i.1.x i.1.u)) := .refl_of_le hw0 hv
  have azn : ApprN w (fun i : ι => (WithLp.toLp 2 i.1.zNext : ℓ²)) (fun i => p2 (WithLp.toLp 2 (flTsPoint i.1.rd s i.1.x i.1.u)) s) :=
    av.map hw0 hw1 (g := fun i _ => (WithLp.toLp 2 i.1.zNext : ℓ²)) (f := fun v => p2 v s) (K := d * K) (M := 1) (by positivity) zero_le_one (fun i => by
      refine (coord_norm i.2.zNext).trans (le_of_eq ?_)
      rw [toLp_norm]; ring) n2
  have azn' := azn.trans hw0 (apt.lip hw0 hw1 zero_le_one n2)
  have adu : ApprN w (fun i : ι => (WithLp.toLp 2 (flTsDual i.1.rd s i.1.u i.1.x i.1.zNext) : ℓ²)) _ := ((au.add ((((ax.sub azn').round hfl).smul s⁻¹).congr_left (fun i => by
      show (WithLp.toLp 2 (fun j => i.1.rd (i.1.x j - i.1.zNext j) / s) : ℓ²) = _
      ext j
      show i.1.rd (i.1.x j - i.1.zNext j) / s = s⁻¹ * i.1.rd (i.1.x j - i.1.zNext j)
      rw [div_eq_inv_mul]) |>.round hfl)).round hfl)
  have adu2 := (apt.sub (apt.lip hw0 hw1 zero_le_one n2)).smul s⁻¹
  -- the certificate
  have ainc := (ax.sub az).round hfl
  have anrm : Appr w (fun i : ι => i.1.nrm) (fun i => ‖p1 (WithLp.toLp 2 i.1.z - s • (WithLp.toLp 2 i.1.u + g (WithLp.toLp 2 i.1.z))) s - WithLp.toLp 2 i.1.z‖) :=
    ApprN.map (E' := ℝ) hw0 hw1 (g := fun i _ => i.1.nrm) (f := fun v : ℓ² => ‖v‖) (K := K) (M := 1) hK zero_le_one (fun i => by
      rw [Real.norm_eq_abs]
      have := i.2.nrm
      rw [← toLp_norm] at this
      exact this) (fun x y => by rw [Real.norm_eq_abs, one_mul]; exact abs_norm_sub_norm_le x y) ainc
  have acert := (anrm.divc hw0 hw1 s).round hfl
  obtain ⟨c1, hc1, q1⟩ := aarg.bound hw1
  obtain ⟨c2, hc2, q2⟩ := ax
  obtain ⟨c3, hc3, q3⟩ := apt
  obtain ⟨c4, hc4, q4⟩ := azn
  obtain ⟨c5, hc5, q5⟩ := adu
  obtain ⟨c6, hc6, q6⟩ := adu2
  obtain ⟨c7, hc7, q7⟩ := acert
  refine ⟨cv + c1 + c2 + c3 + c4 + (c5 + c6) + c7, by positivity, fun i hi => ?_⟩
  have hwi : 0 ≤ i.w := hw0 ⟨i, hi⟩
  have le : ∀ {a c : ℝ}, a ≤ c * i.w → c ≤ cv + c1 + c2 + c3 + c4 + (c5 + c6) + c7 → a ≤ (cv + c1 + c2 + c3 + c4 + (c5 + c6) + c7) * i.w :=
    fun h h' => h.trans (mul_le_mul_of_nonneg_right h' hwi)
  refine ⟨?_, ?_, le (q2 ⟨i, hi⟩).1 (by linarith), le (q3 ⟨i, hi⟩).1 (by linarith), le (q4 ⟨i, hi⟩).1 (by linarith), ?_, le (q7 ⟨i, hi⟩).1 (by linarith)⟩
  · have := q1 ⟨i, hi⟩
    rw [toLp_norm] at this
    linarith
  · have := hv ⟨i, hi⟩
    rw [toLp_norm] at this
    linarith
  · refine le (c := c5 + c6) ?_ (by linarith)
    have b5 := (q5 ⟨i, hi⟩).1
    have b6 := (q6 ⟨i, hi⟩).1
    simp only at b5 b6
    obtain ⟨X, hX⟩ : ∃ X : ℓ², X = p1 (WithLp.toLp 2 i.z - s • (WithLp.toLp 2 i.u + g (WithLp.toLp 2 i.z))) s := ⟨_, rfl⟩
    obtain ⟨U, hU⟩ : ∃ U : ℓ², U = WithLp.toLp 2 i.u := ⟨_, rfl⟩
    rw [← hX, ← hU] at b5 b6
    have e : s⁻¹ • (X + s • U - p2 (X + s • U) s) = U + s⁻¹ • (X - p2 (X + s • U) s) := by
      rw [show X + s • U - p2 (X + s • U) s = s • U + (X - p2 (X + s • U) s) by abel, smul_add, smul_smul, inv_mul_cancel₀ hs.ne', one_smul]
    rw [e] at b6
    have b7 := norm_sub_le_norm_sub_add_norm_sub (WithLp.toLp 2 (flTsDual i.rd s i.u i.x i.zNext) : ℓ²) (U + s⁻¹ • (X - p2 (X + s • U) s)) (dyU p2 s (WithLp.toLp 2 (flTsPoint i.rd s i.x i.u)))
    rw [norm_sub_rev (U + _)] at b7
    have e2 : w ⟨i, hi⟩ = i.w := rfl
    rw [e2] at b5 b6
    unfold dyU at b7 ⊢
    linarith

end Copt
