import Verif.Model.FloatTsSearch
import Verif.Proof.FloatSplit
import Verif.Proof.FloatLineSearch

/-!
# Errors of one iteration of the three operator splitting with line search and rounded arithmetic
-/

set_option linter.unusedSectionVars false

namespace Copt

open Spec

open scoped InnerProductSpace

/-! ### Families -/

section Fam

variable {ι E E' : Type} [NormedAddCommGroup E] [InnerProductSpace ℝ E] [NormedAddCommGroup E'] [NormedSpace ℝ E'] {w : ι → ℝ} {a b a' b' : ι → E}

theorem ApprN.smulI (h : ApprN w a b) {s : ι → ℝ} {S : ℝ} (hS : 0 ≤ S) (hs : ∀ i, |s i| ≤ S) : ApprN w (fun i => s i • a i) (fun i => s i • b i) := by
  obtain ⟨C, hC, h⟩ := h
  refine ⟨S * C, by positivity, fun i => ?_⟩
  rw [← smul_sub, norm_smul, norm_smul, Real.norm_eq_abs, mul_assoc]
  exact ⟨mul_le_mul (hs i) (h i).1 (norm_nonneg _) hS, mul_le_mul (hs i) (h i).2 (norm_nonneg _) hS⟩

/-- Maps that depend on the index and are bounded at the origin. -/
theorem ApprN.mapI (hw : ∀ i, 0 ≤ w i) (hw1 : ∀ i, w i ≤ 1) {g : ι → E'} {f : ι → E → E'} {K M F : ℝ} (hK : 0 ≤ K) (hM : 0 ≤ M) (hF : 0 ≤ F) (hg : ∀ i, ‖g i - f i (a i)‖ ≤ K * w i * (1 + ‖a i‖))
    (hf : ∀ i x y, ‖f i x - f i y‖ ≤ M * ‖x - y‖) (hf0 : ∀ i, ‖f i 0‖ ≤ F) (h : ApprN w a b) : ApprN w g (fun i => f i (b i)) := by
  obtain ⟨D, hD, hbd⟩ := h.bound hw1
  obtain ⟨C, hC, h⟩ := h
  refine ⟨K * (1 + D) + M * C + F, by positivity, fun i => ⟨?_, ?_⟩⟩
  · have h1 := hg i
    have h2 : K * w i * (1 + ‖a i‖) ≤ K * w i * (1 + D) := mul_le_mul_of_nonneg_left (by linarith [hbd i]) (mul_nonneg hK (hw i))
    have h3 := hf i (a i) (b i)
    have h4 := mul_le_mul_of_nonneg_left (h i).1 hM
    have h5 : 0 ≤ F * w i := mul_nonneg hF (hw i)
    have h6 := norm_sub_le_norm_sub_add_norm_sub (g i) (f i (a i)) (f i (b i))
    linarith
  · have h3 := hf i (b i) 0
    rw [sub_zero] at h3
    have h4 := mul_le_mul_of_nonneg_left (h i).2 hM
    have h6 : 0 ≤ K * (1 + D) := by positivity
    have h7 := norm_add_le (f i (b i) - f i 0) (f i 0)
    rw [sub_add_cancel] at h7
    linarith [hf0 i]

theorem ApprN.inner (hw1 : ∀ i, w i ≤ 1) (h : ApprN w a b) (h' : ApprN w a' b') : Appr w (fun i => ⟪a i, a' i⟫_ℝ) (fun i => ⟪b i, b' i⟫_ℝ) := by
  obtain ⟨D, hD, hbd⟩ := h'.bound hw1
  obtain ⟨C, hC, h⟩ := h
  obtain ⟨C', hC', h'⟩ := h'
  refine ⟨C * D + C * C', by positivity, fun i => ⟨?_, ?_⟩⟩
  · have e : ⟪a i, a' i⟫_ℝ - ⟪b i, b' i⟫_ℝ = ⟪a i - b i, a' i⟫_ℝ + ⟪b i, a' i - b' i⟫_ℝ := by rw [inner_sub_left, inner_sub_right]; ring
    rw [e]
    have h1 := (abs_real_inner_le_norm (a i - b i) (a' i)).trans (mul_le_mul (h i).1 (hbd i) (norm_nonneg _) ((norm_nonneg _).trans (h i).1))
    have h2 := (abs_real_inner_le_norm (b i) (a' i - b' i)).trans (mul_le_mul (h i).2 (h' i).1 (norm_nonneg _) hC)
    have h3 := abs_add_le ⟪a i - b i, a' i⟫_ℝ ⟪b i, a' i - b' i⟫_ℝ
    linarith
  · have h2 := (abs_real_inner_le_norm (b i) (b' i)).trans (mul_le_mul (h i).2 (h' i).2 (norm_nonneg _) hC)
    have : 0 ≤ C * D := by positivity
    linarith

/-- Inverses of rounded numbers. -/
theorem Appr.inv_rounded {rd : ι → ℝ → ℝ} {s : ι → ℝ} {A : ℝ} (hA : 0 < A) (hs : ∀ i, A ≤ s i) (hw : ∀ i, 0 ≤ w i) (hw2 : ∀ i, w i ≤ 1 / 2) (h : ∀ i x, |rd i x - x| ≤ w i * |x|) :
    Appr w (fun i => (rd i (s i))⁻¹) (fun i => (s i)⁻¹) := by
  refine ⟨2 * A⁻¹, by positivity, fun i => ?_⟩
  have hsi : 0 < s i := hA.trans_le (hs i)
  have h1 := h i (s i)
  rw [abs_of_pos hsi] at h1
  have h2 : s i / 2 ≤ rd i (s i) := by
    have := (abs_le.mp h1).1
    have h3 := mul_le_mul_of_nonneg_right (hw2 i) hsi.le
    linarith
  have h4 : 0 < rd i (s i) := by linarith
  have hAi : (s i)⁻¹ ≤ A⁻¹ := inv_anti₀ hA (hs i)
  constructor
  · have e : (rd i (s i))⁻¹ - (s i)⁻¹ = -(rd i (s i) - s i) * ((rd i (s i))⁻¹ * (s i)⁻¹) := by field_simp; ring
    rw [e, abs_mul, abs_neg, abs_of_pos (show 0 < (rd i (s i))⁻¹ * (s i)⁻¹ by positivity)]
    calc |rd i (s i) - s i| * ((rd i (s i))⁻¹ * (s i)⁻¹) ≤ w i * s i * ((s i / 2)⁻¹ * (s i)⁻¹) :=
          mul_le_mul h1 (mul_le_mul_of_nonneg_right (inv_anti₀ (by positivity) h2) (by positivity)) (by positivity) (mul_nonneg (hw i) hsi.le)
      _ = 2 * (s i)⁻¹ * w i := by field_simp
      _ ≤ 2 * A⁻¹ * w i := mul_le_mul_of_nonneg_right (by linarith) (hw i)
  · rw [abs_of_pos (by positivity)]
    have : 0 < A⁻¹ := by positivity
    linarith

end Fam

variable {d : ℕ}

local notation "ℓ²" => EuclideanSpace ℝ (Fin d)

/-- Proximal points of the origin, for a smaller step. -/
theorem prox_zero_le {E : Type} [NormedAddCommGroup E] [InnerProductSpace ℝ E] {G : ExtFun E} {p : E → ℝ → E} (hp : IsProxOf G p) {s b : ℝ} (hs : 0 < s) (hsb : s ≤ b) : ‖p 0 s‖ ≤ ‖p 0 b‖ := by
  rcases hsb.eq_or_lt with rfl | hlt
  · exact le_rfl
  have hb : 0 < b := hs.trans hlt
  have h1 := (hp 0 s hs).2 _ (hp 0 b hb).1
  have h2 := (hp 0 b hb).2 _ (hp 0 s hs).1
  rw [sub_zero, sub_zero] at h1 h2
  have h3 : (b - s) * ‖p 0 s‖ ^ 2 ≤ (b - s) * ‖p 0 b‖ ^ 2 := by
    have e1 := mul_le_mul_of_nonneg_left h1 hb.le
    have e2 := mul_le_mul_of_nonneg_left h2 hs.le
    linarith
  exact pow_le_pow_left_iff_of_sq (le_of_mul_le_mul_left h3 (by linarith))
where pow_le_pow_left_iff_of_sq {x y : ℝ} (h : x ^ 2 ≤ y ^ 2) (hx : 0 ≤ x := by positivity) (hy : 0 ≤ y := by positivity) : x ≤ y := (pow_le_pow_iff_left₀ hx hy two_ne_zero).mp h

/-! ### A trial of the line search -/

/-- A trial: precision, step size, state and computed values. -/
structure TosTri (d : ℕ) where
  rd : ℝ → ℝ
  w : ℝ
  s : ℝ
  grad : Fin d → ℝ
  z : Fin d → ℝ
  u : Fin d → ℝ
  x : Fin d → ℝ
  fk : ℝ
  fN : ℝ
  gd : ℝ
  nrm : ℝ

/-- Its accuracy. -/
structure TosTri.Ok (f : ℓ² → ℝ) (g : ℓ² → ℓ²) (p1 : ℓ² → ℝ → ℓ²) (a b K B : ℝ) (i : TosTri d) : Prop where
  rnd : ∀ x, |i.rd x - x| ≤ i.w * |x|
  w_nonneg : 0 ≤ i.w
  w_le : i.w ≤ 1 / 2
  s_ge : a ≤ i.s
  s_le : i.s ≤ b
  grad : ∀ j, |i.grad j - g (WithLp.toLp 2 i.z) j| ≤ K * i.w * (1 + norm2 i.z)
  x : ∀ j, |i.x j - p1 (WithLp.toLp 2 (flTsArg i.rd i.s i.grad i.z i.u)) i.s j| ≤ K * i.w * (1 + norm2 (flTsArg i.rd i.s i.grad i.z i.u))
  fk : |i.fk - f (WithLp.toLp 2 i.z)| ≤ K * i.w * (1 + norm2 i.z) ^ 2
  fN : |i.fN - f (WithLp.toLp 2 i.x)| ≤ K * i.w * (1 + norm2 i.x) ^ 2
  gd : |i.gd - ∑ j, i.grad j * i.rd (i.x j - i.z j)| ≤ K * i.w * (norm2 i.grad * norm2 (fun j => i.rd (i.x j - i.z j)))
  nrm : |i.nrm - norm2 (fun j => i.rd (i.x j - i.z j))| ≤ K * i.w * (1 + norm2 (fun j => i.rd (i.x j - i.z j)))
  z_le : norm2 i.z ≤ B
  u_le : norm2 i.u ≤ B

/-- The exact proximal point of a trial. -/
noncomputable def tosX (g : ℓ² → ℓ²) (p1 : ℓ² → ℝ → ℓ²) (s : ℝ) (z u : Fin d → ℝ) : ℓ² := p1 (WithLp.toLp 2 z - s • (WithLp.toLp 2 u + g (WithLp.toLp 2 z))) s

/-- Its distance from the exact one. -/
structure TosTri.Local (f : ℓ² → ℝ) (g : ℓ² → ℓ²) (p1 : ℓ² → ℝ → ℓ²) (c : ℝ) (i : TosTri d) : Prop where
  arg_le : norm2 (flTsArg i.rd i.s i.grad i.z i.u) ≤ c
  x_le : norm2 i.x ≤ c
  x : ‖(WithLp.toLp 2 i.x : ℓ²) - tosX g p1 i.s i.z i.u‖ ≤ c * i.w
  nrm : |i.nrm - ‖tosX g p1 i.s i.z i.u - WithLp.toLp 2 i.z‖| ≤ c * i.w
  nrm_le : ‖tosX g p1 i.s i.z i.u - WithLp.toLp 2 i.z‖ ≤ c
  test : |flTosTest i.rd i.fN i.fk i.gd i.nrm i.s - (f (WithLp.toLp 2 i.x) - (f (WithLp.toLp 2 i.z) + ⟪g (WithLp.toLp 2 i.z), WithLp.toLp 2 i.x - WithLp.toLp 2 i.z⟫_ℝ +
    ‖(WithLp.toLp 2 i.x : ℓ²) - WithLp.toLp 2 i.z‖ * ‖(WithLp.toLp 2 i.x : ℓ²) - WithLp.toLp 2 i.z‖ * (2 * i.s)⁻¹))| ≤ c * i.w

theorem value_bound {f : ℓ² → ℝ} {g : ℓ² → ℓ²} {L : ℝ} (hL : 0 < L) (hf : ConvexGrad f g) (hq : UpperQuad f g L) (B : ℝ) : ∃ M, 0 ≤ M ∧ ∀ x, ‖x‖ ≤ B → |f x| ≤ M := by
  refine ⟨|f 0| + ‖g 0‖ * |B| + L / 2 * |B| ^ 2, by positivity, fun x hx => ?_⟩
  have hx' : ‖x‖ ≤ |B| := hx.trans (le_abs_self B)
  have h1 := hf 0 x
  have h2 := hq 0 x
  rw [sub_zero] at h1 h2
  have h3 : |⟪g 0, x⟫_ℝ| ≤ ‖g 0‖ * |B| := (abs_real_inner_le_norm _ _).trans (mul_le_mul_of_nonneg_left hx' (norm_nonneg _))
  have h4 : L / 2 * ‖x‖ ^ 2 ≤ L / 2 * |B| ^ 2 := mul_le_mul_of_nonneg_left (pow_le_pow_left₀ (norm_nonneg _) hx' 2) (by positivity)
  have h5 : 0 ≤ L / 2 * |B| ^ 2 := by positivity
  rw [abs_le]
  constructor
  · linarith [neg_abs_le (f 0), (abs_le.mp h3).1]
  · linarith [le_abs_self (f 0), (abs_le.mp h3).2]

set_option maxHeartbeats 1000000 in
theorem tos_trial {f : ℓ² → ℝ} {g : ℓ² → ℓ²} {G : ExtFun ℓ²} {p1 : ℓ² → ℝ → ℓ²} {L a b K : ℝ} (hL : 0 < L) (hf : ConvexGrad f g) (hq : UpperQuad f g L) (hG : G.IsConvex) (h1 : IsProxOf G p1)
    (ha : 0 < a) (hab : a ≤ b) (hK : 0 ≤ K) (B : ℝ) : ∃ c, 0 ≤ c ∧ ∀ i : TosTri d, i.Ok f g p1 a b K B → i.Local f g p1 c := by
  have hd0 : (0 : ℝ) ≤ d := Nat.cast_nonneg d
  have hb : 0 < b := ha.trans_le hab
  have hg := lip_of_cocoercive hL hf hq
  let ι := {i : TosTri d // i.Ok f g p1 a b K B}
  let w : ι → ℝ := fun i => i.1.w
  have hw0 : ∀ i : ι, 0 ≤ w i := fun i => i.2.w_nonneg
  have hw2 : ∀ i : ι, w i ≤ 1 / 2 := fun i => i.2.w_le
  have hw1 : ∀ i : ι, w i ≤ 1 := fun i => (hw2 i).trans (by norm_num)
  have hfl : FlFam (fun i : ι => i.1.rd) w := ⟨hw0, hw1, fun i x => by have := i.2.rnd x; have := hw0 i; show |i.1.rd x - x| ≤ i.1.w * |x| + w i; linarith⟩
  have hs0 : ∀ i : ι, 0 < i.1.s := fun i => ha.trans_le i.2.s_ge
  have hsb : ∀ i : ι, |i.1.s| ≤ b := fun i => by rw [abs_of_pos (hs0 i)]; exact i.2.s_le
  have n1 : ∀ (i : ι) x y, ‖p1 x i.1.s - p1 y i.1.s‖ ≤ 1 * ‖x - y‖ := fun i x y => by rw [one_mul]; exact (h1 _ _ (hs0 i)).nonexpansive hG (hs0 i) (h1 _ _ (hs0 i))
  have az : ApprN w (fun i : ι => (WithLp.toLp 2 i.1.z : ℓ²)) (fun i => WithLp.toLp 2 i.1.z) := .refl_of_le hw0 (C := B) fun i => by rw [toLp_norm]; exact i.2.z_le
  have au : ApprN w (fun i : ι => (WithLp.toLp 2 i.1.u : ℓ²)) (fun i => WithLp.toLp 2 i.1.u) := .refl_of_le hw0 (C := B) fun i => by rw [toLp_norm]; exact i.2.u_le
  have ag : ApprN w (fun i : ι => (WithLp.toLp 2 i.1.grad : ℓ²)) (fun i => g (WithLp.toLp 2 i.1.z)) :=
    az.map hw0 hw1 (g := fun i _ => (WithLp.toLp 2 i.1.grad : ℓ²)) (f := g) (K := d * K) (by positivity) hL.le (fun i => by
      refine (coord_norm i.2.grad).trans (le_of_eq ?_)
      rw [toLp_norm]; ring) hg
  have aarg : ApprN w (fun i : ι => (WithLp.toLp 2 (flTsArg i.1.rd i.1.s i.1.grad i.1.z i.1.u) : ℓ²)) (fun i => WithLp.toLp 2 i.1.z - i.1.s • (WithLp.toLp 2 i.1.u + g (WithLp.toLp 2 i.1.z))) :=
    ((az.sub (((au.add ag).round hfl).smulI hb.le hsb |>.round hfl))).round hfl
  have ax : ApprN w (fun i : ι => (WithLp.toLp 2 i.1.x : ℓ²)) (fun i => tosX g p1 i.1.s i.1.z i.1.u) :=
    aarg.mapI hw0 hw1 (f := fun i v => p1 v i.1.s) (K := d * K) (M := 1) (F := ‖p1 0 b‖) (by positivity) zero_le_one (norm_nonneg _) (fun i => by
      refine (coord_norm i.2.x).trans (le_of_eq ?_)
      rw [toLp_norm]; ring) n1 (fun i => prox_zero_le h1 (hs0 i) i.2.s_le)
  obtain ⟨cx, hcx, hx⟩ := ax.bound hw1
  have axx : ApprN w (fun i : ι => (WithLp.toLp 2 i.1.x : ℓ²)) (fun i => WithLp.toLp 2 i.1.x) := .refl_of_le hw0 hx
  have ainc := (ax.sub az).round hfl
  have ainc2 := (axx.sub az).round hfl
  have hnm : ∀ {D : ι → ℓ²}, ApprN w (fun i : ι => (WithLp.toLp 2 (fun j => i.1.rd (i.1.x j - i.1.z j)) : ℓ²)) D → Appr w (fun i : ι => i.1.nrm) (fun i => ‖D i‖) := fun h =>
    ApprN.map (E' := ℝ) hw0 hw1 (g := fun i _ => i.1.nrm) (f := fun v : ℓ² => ‖v‖) (K := K) (M := 1) hK zero_le_one (fun i => by
      rw [Real.norm_eq_abs]
      have := i.2.nrm
      rw [← toLp_norm] at this
      exact this) (fun x y => by rw [Real.norm_eq_abs, one_mul]; exact abs_norm_sub_norm_le x y) h
  have anrm := hnm ainc
  have anrm2 := hnm ainc2
  -- the values
  obtain ⟨M1, hM1, v1⟩ := value_bound hL hf hq B
  obtain ⟨M2, hM2, v2⟩ := value_bound hL hf hq cx
  have afk : Appr w (fun i : ι => i.1.fk) (fun i => f (WithLp.toLp 2 i.1.z)) := by
    refine ⟨K * (1 + |B|) ^ 2 + M1, by positivity, fun i => ⟨i.2.fk.trans ?_, ?_⟩⟩
    · have h2 : (1 + norm2 i.1.z) ^ 2 ≤ (1 + |B|) ^ 2 := pow_le_pow_left₀ (by linarith [norm2_nonneg' i.1.z]) (by linarith [i.2.z_le, le_abs_self B]) 2
      have h3 := mul_le_mul_of_nonneg_left h2 (mul_nonneg hK (hw0 i))
      have h4 := mul_nonneg hM1 (hw0 i)
      show K * w i * _ ≤ _
      linarith
    · have := v1 (WithLp.toLp 2 i.1.z) (by rw [toLp_norm]; exact i.2.z_le)
      have : 0 ≤ K * (1 + |B|) ^ 2 := by positivity
      linarith
  have afN : Appr w (fun i : ι => i.1.fN) (fun i => f (WithLp.toLp 2 i.1.x)) := by
    refine ⟨K * (1 + cx) ^ 2 + M2, by positivity, fun i => ⟨i.2.fN.trans ?_, ?_⟩⟩
    · have h0 := hx i
      rw [toLp_norm] at h0
      have h2 : (1 + norm2 i.1.x) ^ 2 ≤ (1 + cx) ^ 2 := pow_le_pow_left₀ (by linarith [norm2_nonneg' i.1.x]) (by linarith) 2
      have h3 := mul_le_mul_of_nonneg_left h2 (mul_nonneg hK (hw0 i))
      have h4 := mul_nonneg hM2 (hw0 i)
      show K * w i * _ ≤ _
      linarith
    · have := v2 (WithLp.toLp 2 i.1.x) (hx i)
      have : 0 ≤ K * (1 + cx) ^ 2 := by positivity
      linarith
  -- the scalar product
  have aip := ag.inner hw1 ainc2
  have agd : Appr w (fun i : ι => i.1.gd) (fun i => ⟪g (WithLp.toLp 2 i.1.z), WithLp.toLp 2 i.1.x - WithLp.toLp 2 i.1.z⟫_ℝ) := by
    obtain ⟨c1, hc1, q1⟩ := ag.bound hw1
    obtain ⟨c2, hc2, q2⟩ := ainc2.bound hw1
    obtain ⟨c3, hc3, q3⟩ := aip
    refine ⟨K * (c1 * c2) + c3, by positivity, fun i => ⟨?_, ?_⟩⟩
    · have r1 := q1 i
      have r2 := q2 i
      rw [toLp_norm] at r1 r2
      have h2 := mul_le_mul_of_nonneg_left (mul_le_mul r1 r2 (norm2_nonneg' _) hc1) (mul_nonneg hK (hw0 i))
      have h3 : |i.1.gd - ∑ j, i.1.grad j * i.1.rd (i.1.x j - i.1.z j)| ≤ K * w i * (c1 * c2) := i.2.gd.trans h2
      have h4 : |⟪(WithLp.toLp 2 i.1.grad : ℓ²), WithLp.toLp 2 (fun j => i.1.rd (i.1.x j - i.1.z j))⟫_ℝ - ⟪g (WithLp.toLp 2 i.1.z), WithLp.toLp 2 i.1.x - WithLp.toLp 2 i.1.z⟫_ℝ| ≤ c3 * w i := (q3 i).1
      rw [inner_toLp] at h4
      have h5 := abs_add_le (i.1.gd - ∑ j, i.1.grad j * i.1.rd (i.1.x j - i.1.z j)) (∑ j, i.1.grad j * i.1.rd (i.1.x j - i.1.z j) - ⟪g (WithLp.toLp 2 i.1.z), WithLp.toLp 2 i.1.x - WithLp.toLp 2 i.1.z⟫_ℝ)
      rw [sub_add_sub_cancel] at h5
      linarith
    · have := (q3 i).2
      have : 0 ≤ K * (c1 * c2) := by positivity
      linarith
  have ainv : Appr w (fun i : ι => (i.1.rd (2 * i.1.s))⁻¹) (fun i => (2 * i.1.s)⁻¹) :=
    Appr.inv_rounded (A := 2 * a) (by positivity) (fun i => by have := i.2.s_ge; linarith) hw0 hw2 fun i x => i.2.rnd x
  have aquo := (((anrm2.mul hw0 hw1 anrm2).round hfl).mul hw0 hw1 ainv).round hfl
  have atest := (afN.sub (((afk.add agd).round hfl |>.add aquo).round hfl)).round hfl
  obtain ⟨c1, hc1, q1⟩ := aarg.bound hw1
  obtain ⟨c2, hc2, q2⟩ := ax
  obtain ⟨c3, hc3, q3⟩ := anrm
  obtain ⟨c4, hc4, q4⟩ := atest
  refine ⟨cx + c1 + c2 + c3 + c4, by positivity, fun i hi => ?_⟩
  have hwi : 0 ≤ i.w := hw0 ⟨i, hi⟩
  have le : ∀ {t c : ℝ}, t ≤ c * i.w → c ≤ cx + c1 + c2 + c3 + c4 → t ≤ (cx + c1 + c2 + c3 + c4) * i.w := fun h h' => h.trans (mul_le_mul_of_nonneg_right h' hwi)
  refine ⟨?_, ?_, le (q2 ⟨i, hi⟩).1 (by linarith), le (q3 ⟨i, hi⟩).1 (by linarith), ?_, ?_⟩
  · have := q1 ⟨i, hi⟩
    rw [toLp_norm] at this
    linarith
  · have := hx ⟨i, hi⟩
    rw [toLp_norm] at this
    linarith
  · have := (q3 ⟨i, hi⟩).2
    rw [abs_of_nonneg (norm_nonneg _)] at this
    linarith
  · refine le ?_ (show c4 ≤ _ by linarith)
    have := (q4 ⟨i, hi⟩).1
    unfold flTosTest
    simpa only [div_eq_mul_inv] using this

/-! ### The end of an iteration -/

/-- Lines 149-150. -/
structure TosEnd (d : ℕ) where
  rd : ℝ → ℝ
  w : ℝ
  s : ℝ
  u : Fin d → ℝ
  x : Fin d → ℝ
  zNext : Fin d → ℝ

/-- Its accuracy. -/
structure TosEnd.Ok (p2 : ℓ² → ℝ → ℓ²) (a b K B : ℝ) (i : TosEnd d) : Prop where
  rnd : ∀ x, |i.rd x - x| ≤ i.w * |x|
  w_nonneg : 0 ≤ i.w
  w_le : i.w ≤ 1
  s_ge : a ≤ i.s
  s_le : i.s ≤ b
  zNext : ∀ j, |i.zNext j - p2 (WithLp.toLp 2 (flTsPoint i.rd i.s i.x i.u)) i.s j| ≤ K * i.w * (1 + norm2 (flTsPoint i.rd i.s i.x i.u))
  x_le : norm2 i.x ≤ B
  u_le : norm2 i.u ≤ B

/-- Its distance from the exact one. -/
structure TosEnd.Local (p2 : ℓ² → ℝ → ℓ²) (c : ℝ) (i : TosEnd d) : Prop where
  point_le : norm2 (flTsPoint i.rd i.s i.x i.u) ≤ c
  zNext : ‖(WithLp.toLp 2 i.zNext : ℓ²) - p2 (WithLp.toLp 2 (flTsPoint i.rd i.s i.x i.u)) i.s‖ ≤ c * i.w
  dual : ‖(WithLp.toLp 2 (flTsDual i.rd i.s i.u i.x i.zNext) : ℓ²) - dyU p2 i.s (WithLp.toLp 2 (flTsPoint i.rd i.s i.x i.u))‖ ≤ c * i.w
  zNext_le : norm2 i.zNext ≤ c
  dual_le : norm2 (flTsDual i.rd i.s i.u i.x i.zNext) ≤ c

set_option maxHeartbeats 1000000 in
theorem tos_end {H : ExtFun ℓ²} {p2 : ℓ² → ℝ → ℓ²} {a b K : ℝ} (hH : H.IsConvex) (h2 : IsProxOf H p2) (ha : 0 < a) (hab : a ≤ b) (hK : 0 ≤ K) (B : ℝ) :
    ∃ c, 0 ≤ c ∧ ∀ i : TosEnd d, i.Ok p2 a b K B → i.Local p2 c := by
  have hd0 : (0 : ℝ) ≤ d := Nat.cast_nonneg d
  have hb : 0 < b := ha.trans_le hab
  let ι := {i : TosEnd d // i.Ok p2 a b K B}
  let w : ι → ℝ := fun i => i.1.w
  have hw0 : ∀ i : ι, 0 ≤ w i := fun i => i.2.w_nonneg
  have hw1 : ∀ i : ι, w i ≤ 1 := fun i => i.2.w_le
  have hfl : FlFam (fun i : ι => i.1.rd) w := ⟨hw0, hw1, fun i x => by have := i.2.rnd x; have := hw0 i; show |i.1.rd x - x| ≤ i.1.w * |x| + w i; linarith⟩
  have hs0 : ∀ i : ι, 0 < i.1.s := fun i => ha.trans_le i.2.s_ge
  have hsb : ∀ i : ι, |i.1.s| ≤ b := fun i => by rw [abs_of_pos (hs0 i)]; exact i.2.s_le
  have hsi : ∀ i : ι, |(i.1.s)⁻¹| ≤ a⁻¹ := fun i => by rw [abs_of_pos (inv_pos.mpr (hs0 i))]; exact inv_anti₀ ha i.2.s_ge
  have n2 : ∀ (i : ι) x y, ‖p2 x i.1.s - p2 y i.1.s‖ ≤ 1 * ‖x - y‖ := fun i x y => by rw [one_mul]; exact (h2 _ _ (hs0 i)).nonexpansive hH (hs0 i) (h2 _ _ (hs0 i))
  have ax : ApprN w (fun i : ι => (WithLp.toLp 2 i.1.x : ℓ²)) (fun i => WithLp.toLp 2 i.1.x) := .refl_of_le hw0 (C := B) fun i => by rw [toLp_norm]; exact i.2.x_le
  have au : ApprN w (fun i : ι => (WithLp.toLp 2 i.1.u : ℓ²)) (fun i => WithLp.toLp 2 i.1.u) := .refl_of_le hw0 (C := B) fun i => by rw [toLp_norm]; exact i.2.u_le
  have apt : ApprN w (fun i : ι => (WithLp.toLp 2 (flTsPoint i.1.rd i.1.s i.1.x i.1.u) : ℓ²)) (fun i => WithLp.toLp 2 i.1.x + i.1.s • WithLp.toLp 2 i.1.u) :=
    ((ax.add ((au.smulI hb.le hsb).round hfl)).round hfl)
  obtain ⟨cv, hcv, hv⟩ := apt.bound hw1
  have av : ApprN w (fun i : ι => (WithLp.toLp 2 (flTsPoint i.1.rd i.1.s i.1.x i.1.u) : ℓ²)) (fun i => WithLp.toLp 2 (flTsPoint i.1.rd i.1.s i.1.x i.1.u)) := .refl_of_le hw0 hv
  have azn : ApprN w (fun i : ι => (WithLp.toLp 2 i.1.zNext : ℓ²)) (fun i => p2 (WithLp.toLp 2 (flTsPoint i.1.rd i.1.s i.1.x i.1.u)) i.1.s) :=
    av.mapI hw0 hw1 (f := fun i v => p2 v i.1.s) (K := d * K) (M := 1) (F := ‖p2 0 b‖) (by positivity) zero_le_one (norm_nonneg _) (fun i => by
      refine (coord_norm i.2.zNext).trans (le_of_eq ?_)
      rw [toLp_norm]; ring) n2 (fun i => prox_zero_le h2 (hs0 i) i.2.s_le)
  have adu : ApprN w (fun i : ι => (WithLp.toLp 2 (flTsDual i.1.rd i.1.s i.1.u i.1.x i.1.zNext) : ℓ²)) _ := ((au.add ((((ax.sub azn).round hfl).smulI (inv_nonneg.mpr ha.le) hsi).congr_left (fun i => by
      show (WithLp.toLp 2 (fun j => i.1.rd (i.1.x j - i.1.zNext j) / i.1.s) : ℓ²) = _
      ext j
      show i.1.rd (i.1.x j - i.1.zNext j) / i.1.s = (i.1.s)⁻¹ * i.1.rd (i.1.x j - i.1.zNext j)
      rw [div_eq_inv_mul]) |>.round hfl)).round hfl)
  have adu2 := (apt.sub azn).smulI (inv_nonneg.mpr ha.le) hsi
  obtain ⟨c1, hc1, q1⟩ := azn.bound hw1
  obtain ⟨c2, hc2, q2⟩ := azn
  obtain ⟨c3, hc3, q3⟩ := adu.bound hw1
  obtain ⟨c4, hc4, q4⟩ := adu
  obtain ⟨c6, hc6, q6⟩ := (apt.smulI (inv_nonneg.mpr ha.le) hsi)
  refine ⟨cv + c1 + c2 + c3 + (c4 + c6), by positivity, fun i hi => ?_⟩
  have hwi : 0 ≤ i.w := hw0 ⟨i, hi⟩
  have le : ∀ {t c : ℝ}, t ≤ c * i.w → c ≤ cv + c1 + c2 + c3 + (c4 + c6) → t ≤ (cv + c1 + c2 + c3 + (c4 + c6)) * i.w := fun h h' => h.trans (mul_le_mul_of_nonneg_right h' hwi)
  refine ⟨?_, le (q2 ⟨i, hi⟩).1 (by linarith), ?_, ?_, ?_⟩
  · have := hv ⟨i, hi⟩
    rw [toLp_norm] at this
    linarith
  · refine le (c := c4 + c6) ?_ (by linarith)
    have b5 := (q4 ⟨i, hi⟩).1
    have b6 := (q6 ⟨i, hi⟩).1
    simp only at b5 b6
    obtain ⟨X, hX⟩ : ∃ X : ℓ², X = WithLp.toLp 2 i.x := ⟨_, rfl⟩
    obtain ⟨U, hU⟩ : ∃ U : ℓ², U = WithLp.toLp 2 i.u := ⟨_, rfl⟩
    obtain ⟨V, hV⟩ : ∃ V : ℓ², V = WithLp.toLp 2 (flTsPoint i.rd i.s i.x i.u) := ⟨_, rfl⟩
    rw [← hX, ← hU, ← hV] at b5
    rw [← hX, ← hU, ← hV] at b6
    rw [← hV]
    have hs : 0 < i.s := hs0 ⟨i, hi⟩
    have e : U + i.s⁻¹ • (X - p2 V i.s) - dyU p2 i.s V = -(i.s⁻¹ • V - i.s⁻¹ • (X + i.s • U)) := by
      unfold dyU
      rw [smul_add, smul_smul, inv_mul_cancel₀ hs.ne', one_smul, smul_sub, smul_sub]
      abel
    have b7 := norm_sub_le_norm_sub_add_norm_sub (WithLp.toLp 2 (flTsDual i.rd i.s i.u i.x i.zNext) : ℓ²) (U + i.s⁻¹ • (X - p2 V i.s)) (dyU p2 i.s V)
    rw [e, norm_neg] at b7
    have e2 : w ⟨i, hi⟩ = i.w := rfl
    rw [e2] at b5 b6
    linarith
  · have := q1 ⟨i, hi⟩
    rw [toLp_norm] at this
    linarith
  · have := q3 ⟨i, hi⟩
    rw [toLp_norm] at this
    linarith

end Copt
