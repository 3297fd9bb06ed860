import Verif.Proof.FloatTsSearch
import Verif.Props.FloatLineSearch
import Verif.Props.FloatSplit
import Verif.Props.FloatTsWitness

/-!
# C136: the three operator splitting with its default line search and rounded arithmetic
-/

set_option linter.unusedSectionVars false

namespace Copt

open Spec

open scoped InnerProductSpace

variable {n d : ℕ}

local notation "ℓ²" => EuclideanSpace ℝ (Fin d)

/-- Accuracy of the oracles: the proximal operators must return on representable vectors `v` with `K w (1 + ‖v‖) ≤ 1` and steps up to `S`. -/
structure FlTosOracles (rd : ℝ → ℝ) (P : FlTosArgs d) (f : ℓ² → ℝ) (g : ℓ² → ℓ²) (p1 p2 : ℓ² → ℝ → ℓ²) (K w S : ℝ) : Prop where
  start : ∀ x j, |P.start x j - g (WithLp.toLp 2 x) j| ≤ K * w * (1 + norm2 x)
  fg : ∀ k x, |(P.fg k x).1 - f (WithLp.toLp 2 x)| ≤ K * w * (1 + norm2 x) ^ 2 ∧ ∀ j, |(P.fg k x).2 j - g (WithLp.toLp 2 x) j| ≤ K * w * (1 + norm2 x)
  fval : ∀ k i x, |P.fval k i x - f (WithLp.toLp 2 x)| ≤ K * w * (1 + norm2 x) ^ 2
  prox1 : ∀ k i v s, (∀ j, rd (v j) = v j) → 0 < s → s ≤ S → K * w * (1 + norm2 v) ≤ 1 → ∃ p, P.prox1 k i v s = .ok p ∧ ∀ j, |p j - p1 (WithLp.toLp 2 v) s j| ≤ K * w * (1 + norm2 v)
  prox2 : ∀ k v s, (∀ j, rd (v j) = v j) → 0 < s → s ≤ S → K * w * (1 + norm2 v) ≤ 1 → ∃ p, P.prox2 k v s = .ok p ∧ ∀ j, |p j - p2 (WithLp.toLp 2 v) s j| ≤ K * w * (1 + norm2 v)
  dot : ∀ k i a b, |P.dot k i a b - ∑ j, a j * b j| ≤ K * w * (norm2 a * norm2 b)
  norm : ∀ k i v, |P.norm k i v - norm2 v| ≤ K * w * (1 + norm2 v)

/-- Guarantee of a run, for an arithmetic of precision `w`: `smin` bounds the step size, and a success is an approximate solution of `0 ∈ ∇f + ∂G + ∂H`. -/
structure FlTosGuarantee (g : ℓ² → ℓ²) (G H : ExtFun ℓ²) (smin C w tol : ℝ) (maxIter : ℕ) (r : FlTosResult d) : Prop where
  nit : r.nit < maxIter
  failure : r.success = false → r.nit + 1 = maxIter ∧ (0 < r.nit → tol ≤ r.certificate)
  step : smin ≤ r.stepSize ∧ r.stepSize ≤ C
  bounded : norm2 r.x ≤ C
  feasible : ∃ X ∈ G.dom, ‖(WithLp.toLp 2 r.x : ℓ²) - X‖ ≤ C * w
  success : r.success = true → r.certificate < tol ∧ ∃ X Z p q, IsSubgrad G X p ∧ IsSubgrad H Z q ∧ ‖(WithLp.toLp 2 r.x : ℓ²) - X‖ ≤ C * w ∧ ‖g Z + p + q‖ ≤ r.certificate + C * w ∧
    ‖X - Z‖ ≤ r.stepSize * r.certificate + C * w ∧ ‖Z‖ ≤ C

theorem FlTosGuarantee.mono {g : ℓ² → ℓ²} {G H : ExtFun ℓ²} {smin C C' w tol : ℝ} {maxIter : ℕ} {r : FlTosResult d} (h : FlTosGuarantee g G H smin C w tol maxIter r) (hw : 0 ≤ w) (hC : C ≤ C') :
    FlTosGuarantee g G H smin C' w tol maxIter r := by
  have hm := mul_le_mul_of_nonneg_right hC hw
  refine ⟨h.nit, h.failure, ⟨h.step.1, h.step.2.trans hC⟩, h.bounded.trans hC, ?_, fun hs => ?_⟩
  · obtain ⟨X, hX, e⟩ := h.feasible
    exact ⟨X, hX, e.trans hm⟩
  · obtain ⟨h1, X, Z, p, q, a1, a2, a3, a4, a5, a6⟩ := h.success hs
    exact ⟨h1, X, Z, p, q, a1, a2, a3.trans hm, by linarith, by linarith, a6.trans hC⟩

/-- Oracles for larger steps. -/
theorem FlTosOracles.of_le {rd : ℝ → ℝ} {P : FlTosArgs d} {f : ℓ² → ℝ} {g : ℓ² → ℓ²} {p1 p2 : ℓ² → ℝ → ℓ²} {K w S S' : ℝ} (h : FlTosOracles rd P f g p1 p2 K w S) (hS : S' ≤ S) :
    FlTosOracles rd P f g p1 p2 K w S' :=
  ⟨h.start, h.fg, h.fval, fun k i v s hv hs hsS => h.prox1 k i v s hv hs (hsS.trans hS), fun k v s hv hs hsS => h.prox2 k v s hv hs (hsS.trans hS), h.dot, h.norm⟩

/-! ### The line search -/

/-- What a line search leaves behind: the point of a trial with a step `s` not smaller than the final one. -/
structure TosTrialOk (g : ℓ² → ℓ²) (p1 : ℓ² → ℝ → ℓ²) (a b c w : ℝ) (z u : Fin d → ℝ) (t : FlTosTrial d) (s : ℝ) : Prop where
  ge : a ≤ t.step
  le : t.step ≤ s
  s_le : s ≤ b
  x : ‖(WithLp.toLp 2 t.x : ℓ²) - tosX g p1 s z u‖ ≤ c * w
  x_le : norm2 t.x ≤ c
  nrm : |t.nrm - ‖tosX g p1 s z u - WithLp.toLp 2 z‖| ≤ c * w
  nrm_le : ‖tosX g p1 s z u - WithLp.toLp 2 z‖ ≤ c

section Search

variable {rd : ℝ → ℝ} {P : FlTosArgs d} {f : EuclideanSpace ℝ (Fin d) → ℝ} {g : EuclideanSpace ℝ (Fin d) → EuclideanSpace ℝ (Fin d)} {p1 p2 : EuclideanSpace ℝ (Fin d) → ℝ → EuclideanSpace ℝ (Fin d)} {K w a b c u0 B L b0 : ℝ} {z u grad : Fin d → ℝ}

/-- A call of the first proximal operator. -/
theorem tos_call (hr : Rounding rd u0 0) (hu : u0 ≤ w) (hw2 : w ≤ 1 / 2) (hO : FlTosOracles rd P f g p1 p2 K w b) (ha : 0 < a) (hK : 0 ≤ K)
    (hc : ∀ i : TosTri d, i.Ok f g p1 a b K B → i.Local f g p1 c) (hcK : K * w * (1 + c) ≤ 1) (hz : norm2 z ≤ B) (hub : norm2 u ≤ B)
    (hgr : ∀ j, |grad j - g (WithLp.toLp 2 z) j| ≤ K * w * (1 + norm2 z)) {s : ℝ} (hs1 : a ≤ s) (hs2 : s ≤ b) (m k : ℕ) :
    ∃ x, P.prox1 m k (flTsArg rd s grad z u) s = .ok x ∧ ∀ fk fN gd nrm, |fk - f (WithLp.toLp 2 z)| ≤ K * w * (1 + norm2 z) ^ 2 → |fN - f (WithLp.toLp 2 x)| ≤ K * w * (1 + norm2 x) ^ 2 →
      |gd - ∑ j, grad j * rd (x j - z j)| ≤ K * w * (norm2 grad * norm2 (fun j => rd (x j - z j))) →
      |nrm - norm2 (fun j => rd (x j - z j))| ≤ K * w * (1 + norm2 (fun j => rd (x j - z j))) → (⟨rd, w, s, grad, z, u, x, fk, fN, gd, nrm⟩ : TosTri d).Local f g p1 c := by
  have hw : 0 ≤ w := hr.u_nonneg.trans hu
  have hKw : 0 ≤ K * w := mul_nonneg hK hw
  have hn : ∀ v : Fin d → ℝ, 0 ≤ 1 + norm2 v := fun v => by linarith [norm2_nonneg' v]
  have hrnd : ∀ x, |rd x - x| ≤ w * |x| := fun x => rel_err hr hu x
  obtain ⟨X, hX⟩ : ∃ X : Fin d → ℝ, X = fun j => p1 (WithLp.toLp 2 (flTsArg rd s grad z u)) s j := ⟨_, rfl⟩
  have harg := (hc ⟨rd, w, s, grad, z, u, X, f (WithLp.toLp 2 z), f (WithLp.toLp 2 X), ∑ j, grad j * rd (X j - z j), norm2 fun j => rd (X j - z j)⟩
    ⟨hrnd, hw, hw2, hs1, hs2, hgr, fun j => by rw [hX, sub_self, abs_zero]; exact mul_nonneg hKw (hn _), by rw [sub_self, abs_zero]; exact mul_nonneg hKw (pow_nonneg (hn _) 2),
      by rw [sub_self, abs_zero]; exact mul_nonneg hKw (pow_nonneg (hn _) 2), by rw [sub_self, abs_zero]; exact mul_nonneg hKw (mul_nonneg (norm2_nonneg' _) (norm2_nonneg' _)),
      by rw [sub_self, abs_zero]; exact mul_nonneg hKw (hn _), hz, hub⟩).arg_le
  obtain ⟨x, e, hx⟩ := hO.prox1 m k (flTsArg rd s grad z u) s (fun j => hr.idem _) (ha.trans_le hs1) hs2 (le_trans (mul_le_mul_of_nonneg_left (by linarith) hKw) hcK)
  exact ⟨x, e, fun fk fN gd nrm h1 h2 h3 h4 => hc _ ⟨hrnd, hw, hw2, hs1, hs2, hgr, hx, h1, h2, h3, h4, hz, hub⟩⟩

/-- The line search. -/
theorem tosSearch_out (hr : Rounding rd u0 0) (hu : u0 ≤ w) (hw2 : w ≤ 1 / 2) (hO : FlTosOracles rd P f g p1 p2 K w b) (hL : 0 < L) (hq : UpperQuad f g L) (ha : 0 < a) (hK : 0 ≤ K)
    (hc : ∀ i : TosTri d, i.Ok f g p1 a b K B → i.Local f g p1 c) (hcK : K * w * (1 + c) ≤ 1) (hcw : c * w ≤ 1 / 2 ^ 52) (hz : norm2 z ≤ B) (hub : norm2 u ≤ B)
    (hgr : ∀ j, |grad j - g (WithLp.toLp 2 z) j| ≤ K * w * (1 + norm2 z)) {fk : ℝ} (hfk : |fk - f (WithLp.toLp 2 z)| ≤ K * w * (1 + norm2 z) ^ 2)
    (hb0 : 0 < b0) (hf1 : b0 ≤ P.factor) (hf2 : P.factor ≤ 1 - b0) (hwb : w ≤ b0) (hab : a * (2 * L) ≤ b0) (it : ℕ) :
    ∀ k i t s, TosTrialOk g p1 a b c w z u t s → ∃ t' s', flTosSearch rd P it z u fk grad k i t = .ok t' ∧ TosTrialOk g p1 a b c w z u t' s' := by
  have hw : 0 ≤ w := hr.u_nonneg.trans hu
  intro k
  induction k with
  | zero => intro i t s ht; exact ⟨t, s, rfl, ht⟩
  | succ k ih =>
    intro i t s ht
    have hsb : t.step ≤ b := ht.le.trans ht.s_le
    have hs0 : 0 < t.step := ha.trans_le ht.ge
    obtain ⟨x, e, hloc⟩ := tos_call hr hu hw2 hO ha hK hc hcK hz hub hgr ht.ge hsb (it + 1) (i + 1)
    have hl := hloc fk (P.fval it i x) (P.dot it i grad fun j => rd (x j - z j)) (P.norm it (i + 1) fun j => rd (x j - z j)) hfk (hO.fval it i x) (hO.dot it i _ _) (hO.norm it (i + 1) _)
    rw [flTosSearch, e]
    simp only [bind, Except.bind]
    by_cases hle : flTosTest rd (P.fval it i x) fk (P.dot it i grad fun j => rd (x j - z j)) (P.norm it (i + 1) fun j => rd (x j - z j)) t.step ≤ 1 / 2 ^ 52
    · rw [if_pos hle]
      exact ⟨_, t.step, rfl, ht.ge, le_rfl, hsb, hl.x, hl.x_le, hl.nrm, hl.nrm_le⟩
    · rw [if_neg hle]
      -- only steps larger than `1/L` are rejected
      have hLs : 1 < L * t.step := by
        by_contra hcon
        push Not at hcon
        apply hle
        have h1 := (abs_le.mp hl.test).2
        simp only at h1
        have h2 := hq (WithLp.toLp 2 z) (WithLp.toLp 2 x)
        obtain ⟨D, hD⟩ : ∃ D, D = ‖(WithLp.toLp 2 x : ℓ²) - WithLp.toLp 2 z‖ := ⟨_, rfl⟩
        rw [← hD] at h1 h2
        have h3 : L / 2 ≤ (2 * t.step)⁻¹ := by
          rw [← one_div, le_div_iff₀ (by positivity)]
          linarith
        have h4 := mul_le_mul_of_nonneg_right h3 (mul_self_nonneg D)
        rw [pow_two] at h2
        linarith
      have h1 := rel_bounds hr hu (show 0 ≤ t.step * P.factor from mul_nonneg hs0.le (hb0.le.trans hf1))
      have hge : a ≤ rd (t.step * P.factor) := by
        refine le_trans ?_ h1.1
        have h2 : 1 / L ≤ t.step := by rw [div_le_iff₀ hL]; linarith
        have h3 : 1 / L * b0 ≤ t.step * P.factor := mul_le_mul h2 hf1 hb0.le hs0.le
        have h4 : (1 / 2 : ℝ) * (1 / L * b0) ≤ (1 - w) * (t.step * P.factor) := mul_le_mul (by linarith) h3 (by positivity) (by linarith)
        refine le_trans ?_ h4
        rw [show (1 / 2 : ℝ) * (1 / L * b0) = b0 / (2 * L) by field_simp, le_div_iff₀ (by positivity)]
        exact hab
      have hle' : rd (t.step * P.factor) ≤ t.step := by
        refine h1.2.trans ?_
        have h2 : (1 + w) * (t.step * P.factor) ≤ (1 + b0) * (t.step * (1 - b0)) :=
          mul_le_mul (by linarith) (mul_le_mul_of_nonneg_left hf2 hs0.le) (mul_nonneg hs0.le (hb0.le.trans hf1)) (by linarith)
        have h3 : 0 ≤ t.step * (b0 * b0) := by positivity
        linarith
      exact ih (i + 1) _ t.step ⟨hge, hle', hsb, hl.x, hl.x_le, hl.nrm, hl.nrm_le⟩

/-- The first half of an iteration. -/
theorem tosTrial_out (hr : Rounding rd u0 0) (hu : u0 ≤ w) (hw2 : w ≤ 1 / 2) (hO : FlTosOracles rd P f g p1 p2 K w b) (hL : 0 < L) (hq : UpperQuad f g L) (ha : 0 < a) (hK : 0 ≤ K)
    (hc : ∀ i : TosTri d, i.Ok f g p1 a b K B → i.Local f g p1 c) (hcK : K * w * (1 + c) ≤ 1) (hcw : c * w ≤ 1 / 2 ^ 52) (hz : norm2 z ≤ B) (hub : norm2 u ≤ B)
    (hb0 : 0 < b0) (hf1 : b0 ≤ P.factor) (hf2 : P.factor ≤ 1 - b0) (hwb : w ≤ b0) (hab : a * (2 * L) ≤ b0) (search : Bool) (it : ℕ) {s : ℝ} (hs1 : a ≤ s) (hs2 : s ≤ b) :
    ∃ t l s', flTosTrial rd P search it z u s = .ok (t, l) ∧ TosTrialOk g p1 a b c w z u t s' := by
  have hw : 0 ≤ w := hr.u_nonneg.trans hu
  have hn : ∀ v : Fin d → ℝ, 0 ≤ 1 + norm2 v := fun v => by linarith [norm2_nonneg' v]
  obtain ⟨hfk, hgr⟩ := hO.fg it z
  obtain ⟨x, e, hloc⟩ := tos_call hr hu hw2 hO ha hK hc hcK hz hub hgr hs1 hs2 (it + 1) 0
  have hl := hloc _ (f (WithLp.toLp 2 x)) _ (P.norm it 0 fun j => rd (x j - z j)) hfk (by rw [sub_self, abs_zero]; exact mul_nonneg (mul_nonneg hK hw) (pow_nonneg (hn _) 2)) (hO.dot it 0 _ _)
    (hO.norm it 0 _)
  have hok : TosTrialOk g p1 a b c w z u ⟨x, P.norm it 0 fun j => rd (x j - z j), s⟩ s := ⟨hs1, le_rfl, hs2, hl.x, hl.x_le, hl.nrm, hl.nrm_le⟩
  unfold flTosTrial
  simp only [bind, Except.bind]
  rw [e]
  simp only []
  by_cases hcase : rd (1 / 10 ^ 7) < P.norm it 0 (fun j => rd (x j - z j)) ∧ search = true
  · rw [if_pos hcase]
    obtain ⟨t, s', e2, ht⟩ := tosSearch_out hr hu hw2 hO hL hq ha hK hc hcK hcw hz hub hgr hfk hb0 hf1 hf2 hwb hab it P.lsIter 0 _ s hok
    rw [e2]
    exact ⟨t, true, s', rfl, ht⟩
  · rw [if_neg hcase]
    exact ⟨_, false, s, rfl, hok⟩

/-- The second half of an iteration. -/
theorem tosEnd_out (hr : Rounding rd u0 0) (hu : u0 ≤ w) (hw1 : w ≤ 1) (hO : FlTosOracles rd P f g p1 p2 K w b) (ha : 0 < a) (hK : 0 ≤ K) (hc : ∀ i : TosEnd d, i.Ok p2 a b K B → i.Local p2 c)
    (hcK : K * w * (1 + c) ≤ 1) {x : Fin d → ℝ} (hx : norm2 x ≤ B) (hub : norm2 u ≤ B) {s : ℝ} (hs1 : a ≤ s) (hs2 : s ≤ b) (m : ℕ) :
    ∃ zN, P.prox2 m (flTsPoint rd s x u) s = .ok zN ∧ (⟨rd, w, s, u, x, zN⟩ : TosEnd d).Local p2 c := by
  have hw : 0 ≤ w := hr.u_nonneg.trans hu
  have hKw : 0 ≤ K * w := mul_nonneg hK hw
  have hn : ∀ v : Fin d → ℝ, 0 ≤ 1 + norm2 v := fun v => by linarith [norm2_nonneg' v]
  have hrnd : ∀ x, |rd x - x| ≤ w * |x| := fun x => rel_err hr hu x
  have hpt := (hc ⟨rd, w, s, u, x, fun j => p2 (WithLp.toLp 2 (flTsPoint rd s x u)) s j⟩
    ⟨hrnd, hw, hw1, hs1, hs2, fun j => by rw [sub_self, abs_zero]; exact mul_nonneg hKw (hn _), hx, hub⟩).point_le
  obtain ⟨zN, e, hz⟩ := hO.prox2 m (flTsPoint rd s x u) s (fun j => hr.idem _) (ha.trans_le hs1) hs2 (le_trans (mul_le_mul_of_nonneg_left (by linarith) hKw) hcK)
  exact ⟨zN, e, hc _ ⟨hrnd, hw, hw1, hs1, hs2, hz, hx, hub⟩⟩

/-- The certificate of an iteration. -/
theorem tos_cert (hr : Rounding rd u0 0) (hu : u0 ≤ w) (hw1 : w ≤ 1) (ha : 0 < a) (hc0 : 0 ≤ c) {t : FlTosTrial d} {s : ℝ} (ht : TosTrialOk g p1 a b c w z u t s) :
    ‖tosX g p1 s z u - WithLp.toLp 2 z‖ / t.step ≤ rd (t.nrm / t.step) + 3 * (c / a) * w := by
  have hw : 0 ≤ w := hr.u_nonneg.trans hu
  have hs0 : 0 < t.step := ha.trans_le ht.ge
  obtain ⟨D, hD⟩ : ∃ D, D = ‖tosX g p1 s z u - WithLp.toLp 2 z‖ := ⟨_, rfl⟩
  have h1 := ht.nrm
  have h2 := ht.nrm_le
  rw [← hD] at h1 h2 ⊢
  have hD0 : 0 ≤ D := by rw [hD]; positivity
  have hcw : c * w ≤ c := mul_le_of_le_one_right hc0 hw1
  have h3 := abs_le.mp h1
  have h4 : |t.nrm| ≤ 2 * c := by rw [abs_le]; constructor <;> linarith [h3.1, h3.2]
  have hdiv : ∀ {y}, 0 ≤ y → y / t.step ≤ y / a := fun hy => div_le_div_of_nonneg_left hy ha ht.ge
  have h5 : |t.nrm / t.step| ≤ 2 * c / a := by
    rw [abs_div, abs_of_pos hs0]
    exact (hdiv (abs_nonneg _)).trans (div_le_div_of_nonneg_right h4 ha.le)
  have h6 := (abs_le.mp (rel_err hr hu (t.nrm / t.step))).1
  have h7 := mul_le_mul_of_nonneg_left h5 hw
  have h8 : (D - c * w) / t.step ≤ t.nrm / t.step := div_le_div_of_nonneg_right (by linarith [h3.1]) hs0.le
  have h9 : c * w / t.step ≤ c * w / a := hdiv (mul_nonneg hc0 hw)
  rw [sub_div] at h8
  have e1 : w * (2 * c / a) = 2 * (c / a) * w := by ring
  have e2 : c * w / a = c / a * w := by ring
  linarith

/-- The result of a run which ends after an iteration. -/
theorem tos_result {G H : ExtFun (EuclideanSpace ℝ (Fin d))} (hr : Rounding rd u0 0) (hu : u0 ≤ w) (hw1 : w ≤ 1) (ha : 0 < a) (hc0 : 0 ≤ c) (hB : 0 ≤ B) (hL : 0 < L) (hg : ∀ x y, ‖g x - g y‖ ≤ L * ‖x - y‖)
    (hG : G.IsConvex) (h1 : IsProxOf G p1) {t : FlTosTrial d} {s tol : ℝ} (ht : TosTrialOk g p1 a b c w z u t s) {it N : ℕ} (hit : it < N)
    (hz : norm2 z ≤ B) (hzq : 0 < it → ∃ Z q, IsSubgrad H Z q ∧ ‖(WithLp.toLp 2 z : EuclideanSpace ℝ (Fin d)) - Z‖ ≤ B * w ∧ ‖(WithLp.toLp 2 u : EuclideanSpace ℝ (Fin d)) - q‖ ≤ B * w) {su : Bool}
    (hs : su = true → 0 < it ∧ rd (t.nrm / t.step) < tol) (hf : su = false → it + 1 = N ∧ (0 < it → tol ≤ rd (t.nrm / t.step))) {sn : ℝ} (hn1 : t.step ≤ sn)
    (hn2 : sn ≤ 2 * t.step) :
    FlTosGuarantee g G H a (c + (L + 4) * B + 3 * (c / a) + 2 * b * (3 * (c / a) + 1)) w tol N ⟨t.x, su, it, rd (t.nrm / t.step), sn⟩ := by
  have hw : 0 ≤ w := hr.u_nonneg.trans hu
  have hs0 : 0 < t.step := ha.trans_le ht.ge
  have hs1 : 0 < s := hs0.trans_le ht.le
  have hb : 0 < b := hs1.trans_le ht.s_le
  have hca : 0 ≤ c / a := div_nonneg hc0 ha.le
  have hLB : 0 ≤ L * B := mul_nonneg hL.le hB
  have hbc : 0 ≤ b * (3 * (c / a)) := mul_nonneg hb.le (by linarith)
  have hsb := ht.le.trans ht.s_le
  have hpr := h1 (WithLp.toLp 2 z - s • (WithLp.toLp 2 u + g (WithLp.toLp 2 z))) s hs1
  have hxw : ‖(WithLp.toLp 2 t.x : EuclideanSpace ℝ (Fin d)) - tosX g p1 s z u‖ ≤ (c + (L + 4) * B + 3 * (c / a) + 2 * b * (3 * (c / a) + 1)) * w :=
    ht.x.trans (mul_le_mul_of_nonneg_right (by linarith) hw)
  refine ⟨hit, hf, ⟨ht.ge.trans hn1, hn2.trans (by linarith)⟩, ht.x_le.trans (by linarith), ⟨_, hpr.1, hxw⟩, fun he => ?_⟩
  obtain ⟨hi, htol⟩ := hs he
  obtain ⟨Z, q, hq, hzZ, huq⟩ := hzq hi
  have hcert := tos_cert hr hu hw1 ha hc0 ht
  refine ⟨htol, tosX g p1 s z u, Z, _, q, hpr.subgrad hG hs1, hq, hxw, ?_, ?_, ?_⟩
  · obtain ⟨D, hD⟩ : ∃ D, D = ‖tosX g p1 s z u - WithLp.toLp 2 z‖ := ⟨_, rfl⟩
    obtain ⟨cert, hcert'⟩ : ∃ cert, cert = rd (t.nrm / t.step) := ⟨_, rfl⟩
    show ‖g Z + s⁻¹ • ((WithLp.toLp 2 z - s • (WithLp.toLp 2 u + g (WithLp.toLp 2 z))) - tosX g p1 s z u) + q‖ ≤ rd (t.nrm / t.step) + _
    have e : g Z + s⁻¹ • ((WithLp.toLp 2 z - s • (WithLp.toLp 2 u + g (WithLp.toLp 2 z))) - tosX g p1 s z u) + q =
        (g Z - g (WithLp.toLp 2 z)) + (s⁻¹ • (WithLp.toLp 2 z - tosX g p1 s z u)) + (q - WithLp.toLp 2 u) := by
      have e1 : (WithLp.toLp 2 z - s • (WithLp.toLp 2 u + g (WithLp.toLp 2 z))) - tosX g p1 s z u = (WithLp.toLp 2 z - tosX g p1 s z u) - s • (WithLp.toLp 2 u + g (WithLp.toLp 2 z)) := by abel
      rw [e1, smul_sub s⁻¹ (_ - tosX g p1 s z u), smul_smul, inv_mul_cancel₀ hs1.ne', one_smul]
      abel
    rw [e, ← hcert']
    rw [← hD, ← hcert'] at hcert
    refine (norm_add₃_le).trans ?_
    have n1 : ‖g Z - g (WithLp.toLp 2 z)‖ ≤ L * (B * w) := (hg _ _).trans (mul_le_mul_of_nonneg_left (by rw [norm_sub_rev]; exact hzZ) hL.le)
    have n2 : ‖s⁻¹ • ((WithLp.toLp 2 z : EuclideanSpace ℝ (Fin d)) - tosX g p1 s z u)‖ ≤ D / t.step := by
      rw [norm_smul, norm_sub_rev, ← hD, Real.norm_of_nonneg (inv_pos.mpr hs1).le, div_eq_mul_inv, mul_comm]
      exact mul_le_mul_of_nonneg_left (inv_anti₀ hs0 ht.le) (by rw [hD]; positivity)
    have n3 : ‖q - (WithLp.toLp 2 u : EuclideanSpace ℝ (Fin d))‖ ≤ B * w := by rw [norm_sub_rev]; exact huq
    have m1 : 0 ≤ (c + 3 * B + 2 * b * (3 * (c / a) + 1)) * w := mul_nonneg (by linarith) hw
    linarith
  · obtain ⟨D, hD⟩ : ∃ D, D = ‖tosX g p1 s z u - WithLp.toLp 2 z‖ := ⟨_, rfl⟩
    obtain ⟨cert, hcert'⟩ : ∃ cert, cert = rd (t.nrm / t.step) := ⟨_, rfl⟩
    show _ ≤ sn * rd (t.nrm / t.step) + _
    rw [← hcert']
    rw [← hD, ← hcert'] at hcert
    have n1 : ‖tosX g p1 s z u - Z‖ ≤ D + B * w := by
      have := norm_sub_le_norm_sub_add_norm_sub (tosX g p1 s z u) (WithLp.toLp 2 z) Z
      rw [← hD] at this
      linarith
    have n2 : D ≤ sn * cert + 2 * b * (3 * (c / a)) * w := by
      have k0 : 0 ≤ cert + 3 * (c / a) * w := le_trans (div_nonneg (by rw [hD]; positivity) hs0.le) hcert
      rw [div_le_iff₀ hs0] at hcert
      have k1 : t.step * (cert + 3 * (c / a) * w) ≤ sn * (cert + 3 * (c / a) * w) := mul_le_mul_of_nonneg_right hn1 k0
      have k2 : sn * (3 * (c / a) * w) ≤ 2 * b * (3 * (c / a) * w) := mul_le_mul_of_nonneg_right (by linarith) (mul_nonneg (by linarith) hw)
      linarith
    have m1 : 0 ≤ (c + (L + 3) * B + 3 * (c / a) + 2 * b) * w := mul_nonneg (by nlinarith only [hLB, hB, hca, hc0, hb]) hw
    linarith
  · have n1 := norm_sub_norm_le Z (WithLp.toLp 2 z)
    rw [norm_sub_rev, toLp_norm z] at n1
    have n2 : B * w ≤ B := mul_le_of_le_one_right hB hw1
    linarith

/-- The step size for the next iteration. -/
theorem tos_next (hr : Rounding rd u0 0) (hu : u0 ≤ w) (hw : w ≤ 1 / 200) {s : ℝ} (hs : 0 < s) (p : Prop) [Decidable p] :
    s ≤ (if p then rd (s * rd (102 / 100)) else s) ∧ (if p then rd (s * rd (102 / 100)) else s) ≤ 2 * s := by
  split_ifs
  · have hw0 : 0 ≤ w := hr.u_nonneg.trans hu
    have h1 := rel_bounds hr hu (show (0 : ℝ) ≤ 102 / 100 by norm_num)
    have h2 : 101 / 100 ≤ rd (102 / 100) ∧ rd (102 / 100) ≤ 103 / 100 := ⟨by linarith [h1.1], by linarith [h1.2]⟩
    have h3 : s * (101 / 100) ≤ s * rd (102 / 100) ∧ s * rd (102 / 100) ≤ s * (103 / 100) := ⟨mul_le_mul_of_nonneg_left h2.1 hs.le, mul_le_mul_of_nonneg_left h2.2 hs.le⟩
    have h4 := rel_bounds hr hu (show (0 : ℝ) ≤ s * rd (102 / 100) by linarith [h3.1])
    constructor
    · have h5 : (1 - 1 / 200) * (s * (101 / 100)) ≤ (1 - w) * (s * rd (102 / 100)) := mul_le_mul (by linarith) h3.1 (by linarith) (by linarith)
      linarith [h4.1]
    · have h5 : (1 + w) * (s * rd (102 / 100)) ≤ (1 + 1 / 200) * (s * (103 / 100)) := mul_le_mul (by linarith) h3.2 (by linarith [h3.1]) (by norm_num)
      linarith [h4.2]
  · constructor <;> linarith

end Search

/-! ### Runs -/

theorem tos_const {K b0 c1 c2 : ℝ} (hK : 0 ≤ K) (hb0 : 0 < b0) (hc1 : 0 ≤ c1) (hc2 : 0 ≤ c2) : ∀ w, 0 ≤ w → (200 + 1 / b0 + 2 ^ 52 * c1 + K * (1 + c1) + K * (1 + c2)) * w ≤ 1 →
    w ≤ 1 / 200 ∧ w ≤ b0 ∧ c1 * w ≤ 1 / 2 ^ 52 ∧ K * w * (1 + c1) ≤ 1 ∧ K * w * (1 + c2) ≤ 1 := by
  intro w hw h
  have m1 : 0 ≤ 1 / b0 * w := by positivity
  have m2 : 0 ≤ 2 ^ 52 * c1 * w := by positivity
  have m3 : 0 ≤ K * (1 + c1) * w := by positivity
  have m4 : 0 ≤ K * (1 + c2) * w := by positivity
  have e : (200 + 1 / b0 + 2 ^ 52 * c1 + K * (1 + c1) + K * (1 + c2)) * w = 200 * w + 1 / b0 * w + 2 ^ 52 * c1 * w + K * (1 + c1) * w + K * (1 + c2) * w := by ring
  rw [e] at h
  refine ⟨by linarith, ?_, ?_, by linarith, by linarith⟩
  · have : 1 / b0 * w ≤ 1 := by linarith
    rw [one_div_mul_eq_div, div_le_one hb0] at this
    exact this
  · rw [le_div_iff₀ (by positivity)]
    linarith

set_option maxHeartbeats 1000000 in
theorem tosLoop_out {f : ℓ² → ℝ} {g : ℓ² → ℓ²} {G H : ExtFun ℓ²} {p1 p2 : ℓ² → ℝ → ℓ²} {L K a b0 : ℝ} (hL : 0 < L) (hf : ConvexGrad f g) (hq : UpperQuad f g L) (hG : G.IsConvex) (h1 : IsProxOf G p1)
    (hH : H.IsConvex) (h2 : IsProxOf H p2) (hK : 0 ≤ K) (ha : 0 < a) (hb0 : 0 < b0) (hab0 : a * (2 * L) ≤ b0) : ∀ (m : ℕ) (B b : ℝ), a ≤ b → ∃ C, 0 ≤ C ∧
      ∀ (rd : ℝ → ℝ) (u0 w : ℝ), Rounding rd u0 0 → u0 ≤ w → C * w ≤ 1 → ∀ P : FlTosArgs d, FlTosOracles rd P f g p1 p2 K w (2 ^ m * b) → b0 ≤ P.factor → P.factor ≤ 1 - b0 →
        ∀ search it z u s, norm2 z ≤ B → norm2 u ≤ B → a ≤ s → s ≤ b → (0 < it → ∃ Z q, IsSubgrad H Z q ∧ ‖(WithLp.toLp 2 z : ℓ²) - Z‖ ≤ B * w ∧ ‖(WithLp.toLp 2 u : ℓ²) - q‖ ≤ B * w) →
          ∃ r, flTosLoop rd P search m it z u s = .ok r ∧ FlTosGuarantee g G H a C w P.tol (it + m + 1) r := by
  have hglip := lip_of_cocoercive hL hf hq
  intro m
  induction m with
  | zero =>
    intro B b hab
    have hb : 0 < b := ha.trans_le hab
    obtain ⟨c1, hc1, hT⟩ := tos_trial (d := d) hL hf hq hG h1 ha hab hK B
    obtain ⟨c2, hc2, hE⟩ := tos_end (d := d) hH h2 ha hab hK (c1 + |B|)
    have hcon := tos_const hK hb0 hc1 hc2
    refine ⟨(200 + 1 / b0 + 2 ^ 52 * c1 + K * (1 + c1) + K * (1 + c2)) + (c1 + (L + 4) * |B| + 3 * (c1 / a) + 2 * b * (3 * (c1 / a) + 1)), by positivity, ?_⟩
    intro rd u0 w hr hu hC P hO' hf1 hf2 search it z u s hz hub hs1 hs2 hzq
    have hw : 0 ≤ w := hr.u_nonneg.trans hu
    have hO := hO'.of_le (le_mul_of_one_le_left hb.le (one_le_pow₀ (by norm_num)))
    obtain ⟨k0, k2, k3, k4, k5⟩ := hcon w hw ((mul_le_mul_of_nonneg_right (le_add_of_nonneg_right (by positivity)) hw).trans hC)
    have k1 : w ≤ 1 / 2 := k0.trans (by norm_num)
    obtain ⟨t, l, s', e1, ht⟩ := tosTrial_out hr hu k1 hO hL hq ha hK hT k4 k3 hz hub hb0 hf1 hf2 k2 hab0 search it hs1 hs2
    obtain ⟨zN, e2, -⟩ := tosEnd_out hr hu (k1.trans (by norm_num)) hO ha hK hE k5 (x := t.x) (u := u) (ht.x_le.trans (by linarith [abs_nonneg B])) (by linarith [le_abs_self B]) ht.ge (ht.le.trans ht.s_le) (it + 1)
    have hzq' : 0 < it → ∃ Z q, IsSubgrad H Z q ∧ ‖(WithLp.toLp 2 z : ℓ²) - Z‖ ≤ |B| * w ∧ ‖(WithLp.toLp 2 u : ℓ²) - q‖ ≤ |B| * w := fun h => by
      obtain ⟨Z, q, a1, a2, a3⟩ := hzq h
      have := mul_le_mul_of_nonneg_right (le_abs_self B) hw
      exact ⟨Z, q, a1, a2.trans this, a3.trans this⟩
    have hres := fun {su : Bool} => tos_result (H := H) (tol := P.tol) (su := su) hr hu (k1.trans (by norm_num)) ha hc1 (abs_nonneg B) hL hglip hG h1 ht (Nat.lt_succ_self it) (hz.trans (le_abs_self B)) hzq'
    rw [flTosLoop, e1]
    simp only [bind, Except.bind]
    rw [e2]
    simp only []
    have hnx := tos_next hr hu k0 (ha.trans_le ht.ge) (l = true ∧ P.hZero = true)
    obtain ⟨sn, hsn⟩ : ∃ sn, sn = if l = true ∧ P.hZero = true then rd (t.step * rd (102 / 100)) else t.step := ⟨_, rfl⟩
    rw [← hsn] at hnx ⊢
    by_cases hst : 0 < it ∧ rd (t.nrm / t.step) < P.tol
    · rw [if_pos hst]
      exact ⟨_, rfl, (hres (fun _ => hst) (fun h => by simp at h) hnx.1 hnx.2).mono hw (le_add_of_nonneg_left (by positivity))⟩
    · rw [if_neg hst]
      exact ⟨_, rfl, (hres (fun h => by simp at h) (fun _ => ⟨rfl, fun h => not_lt.mp fun h' => hst ⟨h, h'⟩⟩) hnx.1 hnx.2).mono hw (le_add_of_nonneg_left (by positivity))⟩
  | succ m ih =>
    intro B b hab
    have hb : 0 < b := ha.trans_le hab
    obtain ⟨c1, hc1, hT⟩ := tos_trial (d := d) hL hf hq hG h1 ha hab hK B
    obtain ⟨c2, hc2, hE⟩ := tos_end (d := d) hH h2 ha hab hK (c1 + |B|)
    obtain ⟨C', hC', hih⟩ := ih c2 (2 * b) (by linarith)
    have hcon := tos_const hK hb0 hc1 hc2
    refine ⟨(200 + 1 / b0 + 2 ^ 52 * c1 + K * (1 + c1) + K * (1 + c2)) + (c1 + (L + 4) * |B| + 3 * (c1 / a) + 2 * b * (3 * (c1 / a) + 1)) + C', by positivity, ?_⟩
    intro rd u0 w hr hu hC P hO' hf1 hf2 search it z u s hz hub hs1 hs2 hzq
    have hw : 0 ≤ w := hr.u_nonneg.trans hu
    have hO := hO'.of_le (le_mul_of_one_le_left hb.le (one_le_pow₀ (by norm_num)))
    obtain ⟨k0, k2, k3, k4, k5⟩ := hcon w hw ((mul_le_mul_of_nonneg_right (by rw [add_assoc _ (_ + 2 * b * (3 * (c1 / a) + 1)) C']; exact le_add_of_nonneg_right (show 0 ≤ (c1 + (L + 4) * |B| + 3 * (c1 / a) + 2 * b * (3 * (c1 / a) + 1)) + C' by positivity)) hw).trans hC)
    have k1 : w ≤ 1 / 2 := k0.trans (by norm_num)
    obtain ⟨t, l, s', e1, ht⟩ := tosTrial_out hr hu k1 hO hL hq ha hK hT k4 k3 hz hub hb0 hf1 hf2 k2 hab0 search it hs1 hs2
    have hsb := ht.le.trans ht.s_le
    have hCle : c1 + (L + 4) * |B| + 3 * (c1 / a) + 2 * b * (3 * (c1 / a) + 1) ≤
        (200 + 1 / b0 + 2 ^ 52 * c1 + K * (1 + c1) + K * (1 + c2)) + (c1 + (L + 4) * |B| + 3 * (c1 / a) + 2 * b * (3 * (c1 / a) + 1)) + C' := by
      have : 0 ≤ 200 + 1 / b0 + 2 ^ 52 * c1 + K * (1 + c1) + K * (1 + c2) := by positivity
      linarith
    obtain ⟨zN, e2, hl⟩ := tosEnd_out hr hu (k1.trans (by norm_num)) hO ha hK hE k5 (x := t.x) (u := u) (ht.x_le.trans (by linarith [abs_nonneg B])) (by linarith [le_abs_self B]) ht.ge hsb (it + 1)
    have hzq' : 0 < it → ∃ Z q, IsSubgrad H Z q ∧ ‖(WithLp.toLp 2 z : ℓ²) - Z‖ ≤ |B| * w ∧ ‖(WithLp.toLp 2 u : ℓ²) - q‖ ≤ |B| * w := fun h => by
      obtain ⟨Z, q, a1, a2, a3⟩ := hzq h
      have := mul_le_mul_of_nonneg_right (le_abs_self B) hw
      exact ⟨Z, q, a1, a2.trans this, a3.trans this⟩
    rw [flTosLoop, e1]
    simp only [bind, Except.bind]
    rw [e2]
    simp only []
    have hnx := tos_next hr hu k0 (ha.trans_le ht.ge) (l = true ∧ P.hZero = true)
    obtain ⟨sn, hsn⟩ : ∃ sn, sn = if l = true ∧ P.hZero = true then rd (t.step * rd (102 / 100)) else t.step := ⟨_, rfl⟩
    rw [← hsn] at hnx ⊢
    by_cases hst : 0 < it ∧ rd (t.nrm / t.step) < P.tol
    · rw [if_pos hst]
      exact ⟨_, rfl, (tos_result (H := H) (tol := P.tol) hr hu (k1.trans (by norm_num)) ha hc1 (abs_nonneg B) hL hglip hG h1 ht (show it < it + (m + 1) + 1 by omega) (hz.trans (le_abs_self B)) hzq'
        (fun _ => hst) (fun h => by simp at h) hnx.1 hnx.2).mono hw hCle⟩
    · rw [if_neg hst]
      have hst0 : 0 < t.step := ha.trans_le ht.ge
      obtain ⟨r, e3, hr3⟩ := hih rd u0 w hr hu ((mul_le_mul_of_nonneg_right (le_add_of_nonneg_left (by positivity)) hw).trans hC) P
        (by rw [show (2 : ℝ) ^ m * (2 * b) = 2 ^ (m + 1) * b by ring]; exact hO') hf1 hf2 search (it + 1) zN
        (flTsDual rd t.step u t.x zN) sn hl.zNext_le hl.dual_le (ht.ge.trans hnx.1) (hnx.2.trans (by linarith))
        (fun _ => ⟨_, _, (h2 (WithLp.toLp 2 (flTsPoint rd t.step t.x u)) t.step hst0).subgrad hH hst0, hl.zNext, hl.dual⟩)
      refine ⟨r, e3, ?_⟩
      have hN : it + 1 + m + 1 = it + (m + 1) + 1 := by omega
      rw [hN] at hr3
      exact hr3.mono hw (le_add_of_nonneg_left (by positivity))

/-- **C136 (partial).** The run, for oracles of precision `w`, with a given starting step size between `s1` and `s2` and `h_Lipschitz` either `None` or `0`; the line search may be switched off.  For every `max_iter`
there is `C` such that with `C w ≤ 1` the run does not raise and the guarantee holds. -/
theorem C136_rounded_search_oracles {f : ℓ² → ℝ} {g : ℓ² → ℓ²} {G H : ExtFun ℓ²} {p1 p2 : ℓ² → ℝ → ℓ²} {L K s1 s2 b0 : ℝ} (hL : 0 < L) (hf : ConvexGrad f g) (hq : UpperQuad f g L) (hG : G.IsConvex)
    (h1 : IsProxOf G p1) (hH : H.IsConvex) (h2 : IsProxOf H p2) (hK : 0 ≤ K) (hs1 : 0 < s1) (hs2 : s1 ≤ s2) (hb0 : 0 < b0) (R : ℝ) (m : ℕ) : ∃ C, 0 < C ∧
      ∀ (rd : ℝ → ℝ) (u0 w : ℝ), Rounding rd u0 0 → u0 ≤ w → C * w ≤ 1 → ∀ P : FlTosArgs d, FlTosOracles rd P f g p1 p2 K w (2 ^ m * s2) → b0 ≤ P.factor → P.factor ≤ 1 - b0 → 0 < P.lsIter →
        P.maxIter = m + 1 → ∀ s0, P.step = some s0 → s1 ≤ s0 → s0 ≤ s2 → (∀ j, rd (P.x0 j) = P.x0 j) → norm2 P.x0 ≤ R →
          ∃ r, flMinimizeTos rd P = .ok r ∧ FlTosGuarantee g G H (min s1 (b0 / (2 * L))) C w P.tol P.maxIter r := by
  obtain ⟨a, ha⟩ : ∃ a, a = min s1 (b0 / (2 * L)) := ⟨_, rfl⟩
  rw [← ha]
  have ha0 : 0 < a := by rw [ha]; exact lt_min hs1 (by positivity)
  have has : a ≤ s1 := by rw [ha]; exact min_le_left _ _
  have hab0 : a * (2 * L) ≤ b0 := by rw [← le_div_iff₀ (by positivity), ha]; exact min_le_right _ _
  have hglip := lip_of_cocoercive hL hf hq
  have hd0 : (0 : ℝ) ≤ d := Nat.cast_nonneg d
  have hb : 0 < s2 := hs1.trans_le hs2
  obtain ⟨c, hc, hE⟩ := tos_end (d := d) hH h2 ha0 (has.trans hs2) hK |R|
  obtain ⟨C, hC, hloop⟩ := tosLoop_out (d := d) hL hf hq hG h1 hH h2 hK ha0 hb0 hab0 m c s2 (has.trans hs2)
  obtain ⟨c3, hc3⟩ : ∃ c3, c3 = 2 * (c + 2 * (s2 * (‖g 0‖ + L * c + 1))) := ⟨_, rfl⟩
  have hc30 : 0 ≤ c3 := by rw [hc3]; positivity
  refine ⟨1 + K * (1 + c) + K * (1 + d * c3) + C, by positivity, ?_⟩
  intro rd u0 w hr hu hCw P hO' hf1 hf2 hls hm s0 hst h01 h02 hx0r hx0
  have hw : 0 ≤ w := hr.u_nonneg.trans hu
  have hO := hO'.of_le (le_mul_of_one_le_left hb.le (one_le_pow₀ (by norm_num)))
  have m1 : 0 ≤ K * (1 + c) * w := by positivity
  have m2 : 0 ≤ K * (1 + d * c3) * w := by positivity
  have m3 : 0 ≤ C * w := by positivity
  have e : (1 + K * (1 + c) + K * (1 + d * c3) + C) * w = w + K * (1 + c) * w + K * (1 + d * c3) * w + C * w := by ring
  rw [e] at hCw
  have hw1 : w ≤ 1 := by linarith
  have hs00 : 0 < s0 := hs1.trans_le h01
  have hr0 : rd 0 = 0 := by have := hr.neg 0; rw [neg_zero] at this; linarith
  have hpt : flTsPoint rd s0 P.x0 0 = P.x0 := by
    funext j
    show rd (P.x0 j + rd (s0 * 0)) = _
    rw [mul_zero, hr0, add_zero, hx0r]
  have hn0 : norm2 (0 : Fin d → ℝ) = 0 := by rw [← toLp_norm, WithLp.toLp_zero, norm_zero]
  obtain ⟨z, ez, hz⟩ := tosEnd_out hr hu hw1 hO ha0 hK hE (by linarith) (x := P.x0) (u := 0) (hx0.trans (le_abs_self R)) (by rw [hn0]; exact abs_nonneg R) (has.trans h01) h02 0
  rw [hpt] at ez
  have hzc : norm2 z ≤ c := hz.zNext_le
  have hkc : K * w * (1 + norm2 z) ≤ 1 := (mul_le_mul_of_nonneg_left (by linarith) (mul_nonneg hK hw)).trans (show K * w * (1 + c) ≤ 1 by linarith)
  have harg : norm2 (fun j => rd (z j - rd (s0 * P.start z j))) ≤ d * c3 := by
    rw [← toLp_norm]
    refine norm_le_of_coord _ fun j => ?_
    show |rd (z j - rd (s0 * P.start z j))| ≤ c3
    have habs : ∀ x, |rd x| ≤ 2 * |x| := fun x => by
      have h3 := rel_err hr hu x
      have h4 := mul_le_mul_of_nonneg_right hw1 (abs_nonneg x)
      have h5 := abs_sub_abs_le_abs_sub (rd x) x
      linarith
    have g1 : |P.start z j| ≤ ‖g 0‖ + L * c + 1 := by
      have h3 := hO.start z j
      have h4 : |g (WithLp.toLp 2 z) j| ≤ ‖g (WithLp.toLp 2 z)‖ := by
        have := abs_le_norm2 (WithLp.ofLp (g (WithLp.toLp 2 z))) j
        rwa [← toLp_norm] at this
      have h5 := hglip (WithLp.toLp 2 z) 0
      rw [sub_zero, toLp_norm z] at h5
      have h6 := mul_le_mul_of_nonneg_left hzc hL.le
      have h7 := norm_sub_norm_le (g (WithLp.toLp 2 z)) (g 0)
      have h8 := abs_sub_abs_le_abs_sub (P.start z j) (g (WithLp.toLp 2 z) j)
      linarith
    have g2 : |rd (s0 * P.start z j)| ≤ 2 * (s2 * (‖g 0‖ + L * c + 1)) := by
      refine (habs _).trans ?_
      rw [abs_mul, abs_of_pos hs00]
      exact mul_le_mul_of_nonneg_left (mul_le_mul h02 g1 (abs_nonneg _) hb.le) (by norm_num)
    have g3 := (abs_le_norm2 z j).trans hzc
    have g4 := abs_sub (z j) (rd (s0 * P.start z j))
    have g5 := habs (z j - rd (s0 * P.start z j))
    rw [hc3]
    linarith
  obtain ⟨x, ex, -⟩ := hO.prox1 0 0 (fun j => rd (z j - rd (s0 * P.start z j))) s0 (fun j => hr.idem _) hs00 h02
    ((mul_le_mul_of_nonneg_left (by linarith) (mul_nonneg hK hw)).trans (show K * w * (1 + d * c3) ≤ 1 by linarith))
  obtain ⟨r, er, hres⟩ := hloop rd u0 w hr hu (by linarith) P hO' hf1 hf2 P.lineSearch 0 z 0 s0 hzc (by rw [hn0]; exact hc) (has.trans h01) h02 (fun h => absurd h (lt_irrefl 0))
  rw [zero_add] at hres
  refine ⟨r, ?_, by rw [hm]; exact hres.mono hw (by have : 0 ≤ 1 + K * (1 + c) + K * (1 + d * c3) := by positivity
                                                    linarith)⟩
  unfold flMinimizeTos
  rw [if_neg hls.ne']
  simp only [bind, Except.bind, hst]
  rw [ez]
  simp only []
  rw [ex]
  simp only [hm]
  exact er

/-! ### The library -/

/-- Oracles of a run on a loss and two penalties or constraints of the library. -/
structure FlTosLib (rd fexp flog1p : ℝ → ℝ) (f : LossObj n d) (pen1 pen2 : PenObj d) (P : FlTosArgs d) : Prop where
  start : ∀ x, f.FlGrad rd fexp x (P.start x)
  fg : ∀ i x, f.FlValue rd fexp flog1p x (P.fg i x).1 ∧ f.FlGrad rd fexp x (P.fg i x).2
  fval : ∀ k i x, f.FlValue rd fexp flog1p x (P.fval k i x)
  prox1 : ∀ k i v s, pen1.FlProxE rd v s (P.prox1 k i v s)
  prox2 : ∀ k v s, pen2.FlProxE rd v s (P.prox2 k v s)
  dot : ∀ k i a b, FlDot rd (List.ofFn fun j => (a j, b j)) (P.dot k i a b)
  norm : ∀ k i v, FlNorm rd v (P.norm k i v)

/-- The oracles of the library satisfy `FlTosOracles`. -/
theorem flTosOracles_library (hn : 0 < n) (f : LossObj n d) (hf : f.Good) (pen1 pen2 : PenObj d) (hpen1 : pen1.FlGoodE) (hpen2 : pen2.FlGoodE) {S : ℝ} (hS : 0 ≤ S) :
    ∃ K M, 0 ≤ K ∧ 0 ≤ M ∧ ∀ (rd fexp flog1p : ℝ → ℝ) (u w : ℝ), Rounding rd u 0 → u ≤ w → (∀ g, f = .log g → 2⁻¹ ^ 53 ≤ w) →
      (∀ t ≤ 18, 0 ≤ fexp t ∧ |fexp t - Real.exp t| ≤ w * Real.exp t) → (∀ s, 0 ≤ s → |flog1p s - Real.log (1 + s)| ≤ w * Real.log (1 + s)) → M * w ≤ 1 →
      ∀ P : FlTosArgs d, FlTosLib rd fexp flog1p f pen1 pen2 P → FlTosOracles rd P f.fn f.gradE pen1.proxE pen2.proxE K w S := by
  obtain ⟨K1, hK1, g1⟩ := f.flGrad_error hf
  obtain ⟨K2, hK2, g2⟩ := pen1.flProxE_error' hpen1 hS le_rfl
  obtain ⟨K3, hK3, g3⟩ := f.value_error hn hf
  obtain ⟨K4, hK4, g4⟩ := pen2.flProxE_error' hpen2 hS le_rfl
  obtain ⟨K, hK⟩ : ∃ K, K = K1 + K2 + K3 + K4 + (12 * d + 2) := ⟨_, rfl⟩
  have hn0 : (0 : ℝ) ≤ n := Nat.cast_nonneg n
  have hd0 : (0 : ℝ) ≤ d := Nat.cast_nonneg d
  refine ⟨K, 4 * n + 16 * d + K2 + K4 + 10, by rw [hK]; positivity, by positivity, ?_⟩
  intro rd fexp flog1p u w hr hu hwl hexp hlog hCw P hP
  have hw0 : 0 ≤ w := hr.u_nonneg.trans hu
  have hnw : 0 ≤ n * w := by positivity
  have hdw : 0 ≤ d * w := by positivity
  have hKw2 : 0 ≤ K2 * w := by positivity
  have hKw4 : 0 ≤ K4 * w := by positivity
  rw [add_mul, add_mul, add_mul, add_mul] at hCw
  have hsc : Scale rd u 0 w 1 := ⟨hr, hu, by positivity, hw0, by linarith, le_rfl⟩
  have mono : ∀ k, k ≤ K → ∀ a, 0 ≤ a → k * w * a ≤ K * w * a := fun k hk a ha => mul_le_mul_of_nonneg_right (mul_le_mul_of_nonneg_right hk hw0) ha
  have hnn : ∀ v : Fin d → ℝ, 0 ≤ 1 + norm2 v := fun v => by linarith [norm2_nonneg' v]
  have hva : ∀ x v, f.FlValue rd fexp flog1p x v → |v - f.fn (WithLp.toLp 2 x)| ≤ K * w * (1 + norm2 x) ^ 2 := fun x v hv =>
    (g3 rd fexp flog1p u w hr hu hwl (by linarith) (by linarith) (by linarith) hexp hlog x v hv).trans (mono _ (by rw [hK]; linarith) _ (pow_nonneg (hnn x) 2))
  have hgr : ∀ x gr, f.FlGrad rd fexp x gr → ∀ j, |gr j - f.gradE (WithLp.toLp 2 x) j| ≤ K * w * (1 + norm2 x) := by
    intro x gr hgr j
    refine (g1 rd u 0 w hsc (by linarith) (by linarith) (by linarith) fexp (fun t ht => ?_) x _ hgr j).trans (mono _ (by rw [hK]; linarith) _ (hnn x))
    have h1 := (hexp t (by linarith)).2
    have h2 := mul_le_mul_of_nonneg_left (Real.exp_le_one_iff.mpr ht) hw0
    linarith
  refine ⟨fun x => hgr x _ (hP.start x), fun k x => ⟨hva x _ (hP.fg k x).1, hgr x _ (hP.fg k x).2⟩, fun k i x => hva x _ (hP.fval k i x), fun k i v s hv hs hsS hKv => ?_,
    fun k v s hv hs hsS hKv => ?_, fun k i a b => ?_, fun k i v => ?_⟩
  · have hm := mono K2 (by rw [hK]; linarith) _ (hnn v)
    obtain ⟨p, e, herr⟩ := g2 rd u 0 w hsc (by linarith) (by linarith) v s _ hv (hm.trans hKv) hs hsS (by simp) (hP.prox1 k i v s)
    exact ⟨p, e, fun j => (herr j).trans hm⟩
  · have hm := mono K4 (by rw [hK]; linarith) _ (hnn v)
    obtain ⟨p, e, herr⟩ := g4 rd u 0 w hsc (by linarith) (by linarith) v s _ hv (hm.trans hKv) hs hsS (by simp) (hP.prox2 k v s)
    exact ⟨p, e, fun j => (herr j).trans hm⟩
  · exact (flDot_norms hr hu (by linarith) (hP.dot k i a b)).trans (mono _ (by rw [hK]; linarith) _ (mul_nonneg (norm2_nonneg' _) (norm2_nonneg' _)))
  · exact (flNorm_error hsc (by linarith) (hP.norm k i v)).trans (mono _ (by rw [hK]; linarith) _ (hnn v))

/-- **C136 (partial).** `minimize_three_split(f.f_grad, x0, pen1.prox, pen2.prox, step_size=s0, line_search=...)` for a loss of the library and two penalties or constraints on vectors other than
`FusedLasso`, everything computed in rounded arithmetic.  For every `max_iter`, bound `R` on the starting point, range `[s1, s2]` of starting step sizes and `b0` with
`b0 ≤ backtracking_factor ≤ 1 - b0` there is `C` such that in an arithmetic of precision `w` with `C w ≤ 1` the run does not raise, whatever `max_iter_backtracking`; the step size never falls
below `min s1 (b0 / (2 L))`; the result is within `C w` of the domain of the first penalty; a failure has used all iterations and its certificate is at least `tol`; and a success comes with points
`X`, `Z` and subgradients `p` of the first penalty at `X` and `q` of the second one at `Z` with `‖∇f(Z) + p + q‖ ≤ certificate + C w`, `‖X - Z‖ ≤ step_size certificate + C w` and `‖x - X‖ ≤ C w`.
Missing: the default `step_size=None`, which `C136_refuted` excludes, a positive `h_Lipschitz`, and a constant that does not depend on `max_iter`.  The logistic loss is covered for precisions that are not
higher than that of doubles, as in C132. -/
theorem C136_rounded_search_partial (hn : 0 < n) (f : LossObj n d) (hf : f.Good) {sv : ℝ} (hsv : IsLargestSingular f.mat sv) (hL : 0 < f.lipschitz sv) (pen1 pen2 : PenObj d) (hpen1 : pen1.FlGoodE)
    (hpen2 : pen2.FlGoodE) {s1 s2 b0 : ℝ} (hs1 : 0 < s1) (hs2 : s1 ≤ s2) (hb0 : 0 < b0) (R : ℝ) (m : ℕ) :
    ∃ C, 0 < C ∧ ∀ (rd fexp flog1p : ℝ → ℝ) (u w : ℝ), Rounding rd u 0 → u ≤ w → (∀ g, f = .log g → 2⁻¹ ^ 53 ≤ w) →
      (∀ t ≤ 18, 0 ≤ fexp t ∧ |fexp t - Real.exp t| ≤ w * Real.exp t) → (∀ s, 0 ≤ s → |flog1p s - Real.log (1 + s)| ≤ w * Real.log (1 + s)) → C * w ≤ 1 →
      ∀ P : FlTosArgs d, FlTosLib rd fexp flog1p f pen1 pen2 P → b0 ≤ P.factor → P.factor ≤ 1 - b0 → 0 < P.lsIter → P.maxIter = m + 1 →
        ∀ s0, P.step = some s0 → s1 ≤ s0 → s0 ≤ s2 → (∀ j, rd (P.x0 j) = P.x0 j) → norm2 P.x0 ≤ R →
          ∃ r, flMinimizeTos rd P = .ok r ∧ FlTosGuarantee f.gradE pen1.fn pen2.fn (min s1 (b0 / (2 * f.lipschitz sv))) C w P.tol P.maxIter r := by
  obtain ⟨-, hconv, hq, -, -⟩ := C92_loss f hf hsv
  obtain ⟨hG, hp1, -, -⟩ := C92_prox_exact pen1 hpen1.good
  obtain ⟨hH, hp2, -, -⟩ := C92_prox_exact pen2 hpen2.good
  obtain ⟨K, M, hK0, hM, hO⟩ := flTosOracles_library hn f hf pen1 pen2 hpen1 hpen2 (show 0 ≤ 2 ^ m * s2 from mul_nonneg (by positivity) (hs1.le.trans hs2))
  obtain ⟨C, hC, h⟩ := C136_rounded_search_oracles (d := d) hL hconv hq hG hp1 hH hp2 hK0 hs1 hs2 hb0 R m
  refine ⟨C + M, by linarith, ?_⟩
  intro rd fexp flog1p u w hr hu hwl hexp hlog hCw P hP hf1 hf2 hls hm s0 hst h01 h02 hx0r hx0
  have hw0 : 0 ≤ w := hr.u_nonneg.trans hu
  have m1 : 0 ≤ C * w := by positivity
  have m2 : 0 ≤ M * w := by positivity
  rw [add_mul] at hCw
  obtain ⟨r, e, c⟩ := h rd u w hr hu (by linarith) P (hO rd fexp flog1p u w hr hu hwl hexp hlog (by linarith) P hP) hf1 hf2 hls hm s0 hst h01 h02 hx0r hx0
  exact ⟨r, e, c.mono hw0 (by linarith)⟩

/-- What C136 claims about the objective value. -/
def FlTosValue (F : ℓ² → ℝ) (D : Set ℓ²) (xs : ℓ²) (C w : ℝ) (r : FlTosResult d) : Prop :=
  r.success = true → ∃ x ∈ D, ‖(WithLp.toLp 2 r.x : ℓ²) - x‖ ≤ C * w ∧ F x - F xs ≤ C * (r.certificate + C * w)

theorem FlTosGuarantee.value {G : ExtFun ℓ²} {f h : ℓ² → ℝ} {g : ℓ² → ℓ²} {L l : ℝ} (hL : 0 < L) (hf : ConvexGrad f g) (hq : UpperQuad f g L) (hl : 0 ≤ l) (hlip : ∀ a b, h a - h b ≤ l * ‖a - b‖)
    {xs : ℓ²} (hxs : xs ∈ G.dom) {C : ℝ} (hC : 0 ≤ C) : ∃ C', C ≤ C' ∧ ∀ (smin w tol : ℝ) (maxIter : ℕ) (r : FlTosResult d), 0 ≤ smin → 0 ≤ w → C * w ≤ 1 →
      FlTosGuarantee g G ⟨Set.univ, h⟩ smin C w tol maxIter r → FlTosValue (fun x => f x + G.val x + h x) G.dom xs C' w r := by
  obtain ⟨A, hA⟩ : ∃ A, A = 2 * l + L / 2 * (2 * C + 1) := ⟨_, rfl⟩
  have hA0 : 0 ≤ A := by rw [hA]; positivity
  obtain ⟨C', hC'⟩ : ∃ C', C' = (C + 1 + ‖xs‖) + A * C + A + 2 * C + 1 := ⟨_, rfl⟩
  have hAC : 0 ≤ A * C := by positivity
  have hxs0 := norm_nonneg xs
  have hCC : C ≤ C' := by rw [hC']; linarith
  refine ⟨C', hCC, ?_⟩
  intro smin w tol maxIter r hsm hw hCw hr hs
  obtain ⟨-, x, z, p, q, b1, b2, b3, b4, b5, b6⟩ := hr.success hs
  refine ⟨x, b1.1, b3.trans (mul_le_mul_of_nonneg_right hCC hw), ?_⟩
  have a := split_gap hf hq hl hlip b1 b2 hxs
  have hx : ‖x‖ ≤ C + 1 := by
    have h1 := norm_sub_norm_le x (WithLp.toLp 2 r.x)
    rw [norm_sub_rev, toLp_norm r.x] at h1
    linarith [hr.bounded]
  obtain ⟨t, ht⟩ : ∃ t, t = r.certificate + C * w := ⟨_, rfl⟩
  rw [← ht] at b4
  have ht0 : 0 ≤ t := (norm_nonneg _).trans b4
  have hCw0 : 0 ≤ C * w := by positivity
  obtain ⟨E, hE⟩ : ∃ E, E = ‖x - z‖ := ⟨_, rfl⟩
  have hE0 : 0 ≤ E := by rw [hE]; positivity
  have hE1 : E ≤ 2 * C + 1 := by rw [hE]; exact (norm_sub_le _ _).trans (by linarith)
  have hE2 : E ≤ C * t + C * w := by
    have k1 : r.stepSize * t ≤ C * t := mul_le_mul_of_nonneg_right hr.step.2 ht0
    have k2 : 0 ≤ r.stepSize * (C * w) := mul_nonneg (hsm.trans hr.step.1) hCw0
    rw [hE]
    rw [ht] at k1 ⊢
    linarith
  rw [← hE] at a
  have c1 : ‖g z + p + q‖ * ‖x - xs‖ ≤ t * (C + 1 + ‖xs‖) := mul_le_mul b4 ((norm_sub_le _ _).trans (by linarith)) (norm_nonneg _) ht0
  have c2 : E ^ 2 ≤ (2 * C + 1) * E := by rw [sq]; exact mul_le_mul_of_nonneg_right hE1 hE0
  have c3 := mul_le_mul_of_nonneg_left c2 (show 0 ≤ L / 2 by linarith)
  have c4 : (f x + G.val x + h x) - (f xs + G.val xs + h xs) ≤ t * (C + 1 + ‖xs‖) + A * E := by rw [hA]; linarith
  have c5 : A * E ≤ A * (C * t + C * w) := mul_le_mul_of_nonneg_left hE2 hA0
  show (f x + G.val x + h x) - (f xs + G.val xs + h xs) ≤ C' * (r.certificate + C' * w)
  have c6 : t + (C' - C) * w = r.certificate + C' * w := by rw [ht]; ring
  rw [← c6, mul_add]
  have k1 : (C + 1 + ‖xs‖ + A * C) * t ≤ C' * t := mul_le_mul_of_nonneg_right (by rw [hC']; linarith) ht0
  have k2 : A * C * w ≤ C' * ((C' - C) * w) := by
    rw [← mul_assoc]
    refine mul_le_mul_of_nonneg_right ?_ hw
    have k3 : A * C ≤ C' := by rw [hC']; linarith
    have k4 : 1 ≤ C' - C := by rw [hC']; linarith
    have k5 := mul_le_mul_of_nonneg_left k4 (hC.trans hCC)
    linarith
  linarith

/-- **C136 (partial), objective value.** In the situation of `C136_rounded_search_partial`, with `L1Norm` or `GroupL1` as second penalty (`lip` is its Lipschitz constant) and a minimiser `xs`: a success is
within `C w` of a feasible point whose objective exceeds the minimum by at most `C (certificate + C w)`. -/
theorem C136_value_partial (hn : 0 < n) (f : LossObj n d) (hf : f.Good) {sv : ℝ} (hsv : IsLargestSingular f.mat sv) (hL : 0 < f.lipschitz sv) (pen1 pen2 : PenObj d) (hpen1 : pen1.FlGoodE)
    (hpen2 : pen2.FlGoodE) {l : ℝ} (hlip : (SplitObj.pen pen2).lip = some l) {xs : ℓ²} (hxs : xs ∈ pen1.fn.dom)
    (hmin : ∀ y ∈ pen1.fn.dom, f.fn xs + pen1.fn.val xs + pen2.fn.val xs ≤ f.fn y + pen1.fn.val y + pen2.fn.val y) {s1 s2 b0 : ℝ} (hs1 : 0 < s1) (hs2 : s1 ≤ s2) (hb0 : 0 < b0) (R : ℝ) (m : ℕ) :
    ∃ C, 0 < C ∧ ∀ (rd fexp flog1p : ℝ → ℝ) (u w : ℝ), Rounding rd u 0 → u ≤ w → (∀ g, f = .log g → 2⁻¹ ^ 53 ≤ w) →
      (∀ t ≤ 18, 0 ≤ fexp t ∧ |fexp t - Real.exp t| ≤ w * Real.exp t) → (∀ s, 0 ≤ s → |flog1p s - Real.log (1 + s)| ≤ w * Real.log (1 + s)) → C * w ≤ 1 →
      ∀ P : FlTosArgs d, FlTosLib rd fexp flog1p f pen1 pen2 P → b0 ≤ P.factor → P.factor ≤ 1 - b0 → 0 < P.lsIter → P.maxIter = m + 1 →
        ∀ s0, P.step = some s0 → s1 ≤ s0 → s0 ≤ s2 → (∀ j, rd (P.x0 j) = P.x0 j) → norm2 P.x0 ≤ R → ∃ r, flMinimizeTos rd P = .ok r ∧
          (r.success = true → r.certificate < P.tol ∧ ∃ x ∈ pen1.fn.dom, ‖(WithLp.toLp 2 r.x : ℓ²) - x‖ ≤ C * w ∧
            (∀ y ∈ pen1.fn.dom, f.fn x + pen1.fn.val x + pen2.fn.val x ≤ f.fn y + pen1.fn.val y + pen2.fn.val y + C * (r.certificate + C * w))) := by
  obtain ⟨-, hconv, hq, -, -⟩ := C92_loss f hf hsv
  obtain ⟨hH, hp2, -, hl3⟩ := C102_prox_exact (.pen pen2) hpen2.good
  obtain ⟨hl0, efn, hl⟩ := hl3 l hlip
  replace efn : pen2.fn = ⟨Set.univ, pen2.fn.val⟩ := efn
  replace hl : ∀ a b, pen2.fn.val a - pen2.fn.val b ≤ l * ‖a - b‖ := hl
  obtain ⟨C, hC, h⟩ := C136_rounded_search_partial hn f hf hsv hL pen1 pen2 hpen1 hpen2 hs1 hs2 hb0 R m
  obtain ⟨C', hCC, hv⟩ := FlTosGuarantee.value (G := pen1.fn) hL hconv hq hl0 hl hxs hC.le
  rw [← efn] at hv
  refine ⟨C', by linarith, ?_⟩
  intro rd fexp flog1p u w hr hu hwl hexp hlog hCw P hP hf1 hf2 hls hm s0 hst h01 h02 hx0r hx0
  have hw0 : 0 ≤ w := hr.u_nonneg.trans hu
  have hCw' : C * w ≤ 1 := (mul_le_mul_of_nonneg_right hCC hw0).trans hCw
  obtain ⟨r, e, c⟩ := h rd fexp flog1p u w hr hu hwl hexp hlog hCw' P hP hf1 hf2 hls hm s0 hst h01 h02 hx0r hx0
  refine ⟨r, e, fun hs => ⟨(c.success hs).1, ?_⟩⟩
  obtain ⟨x, hx, k1, k2⟩ := hv _ w P.tol _ r (le_min hs1.le (by positivity)) hw0 hCw' c hs
  refine ⟨x, hx, k1, fun y hy => ?_⟩
  have k3 := hmin y hy
  simp only at k2
  linarith

/-! ### Instances -/

/-- Runs of the library exist, for every rounding. -/
theorem exists_flTosLib (rd fexp flog1p : ℝ → ℝ) (hn : 0 < n) (hd : 0 < d) (f : LossObj n d) (pen1 pen2 : PenObj d) (hpen1 : pen1.FlGoodE) (hpen2 : pen2.FlGoodE) (x0 : Fin d → ℝ) (tol factor : ℝ)
    (maxIter lsIter : ℕ) (search hZero : Bool) (step : Option ℝ) : ∃ P : FlTosArgs d, FlTosLib rd fexp flog1p f pen1 pen2 P ∧ P.x0 = x0 ∧ P.tol = tol ∧ P.factor = factor ∧ P.maxIter = maxIter ∧
      P.lsIter = lsIter ∧ P.lineSearch = search ∧ P.hZero = hZero ∧ P.step = step := by
  choose gr hgr using fun x => f.exists_flGrad rd fexp hn hd x
  choose va hva using fun x => f.exists_flValue rd fexp flog1p hn hd x
  choose pr1 hpr1 using fun v s => pen1.exists_flProxE rd hd hpen1 v s
  choose pr2 hpr2 using fun v s => pen2.exists_flProxE rd hd hpen2 v s
  choose no hno using fun v : Fin d → ℝ => exists_flNorm rd hd v
  choose dt hdt using fun a b : Fin d → ℝ => exists_flDot_vec rd hd fun j => (a j, b j)
  exact ⟨⟨fun _ x => (va x, gr x), gr, fun _ x => (va x, gr x), fun _ _ => va, fun _ _ => pr1, fun _ => pr2, fun _ _ => no, fun _ _ => dt, x0, tol, maxIter, search, step, lsIter, factor, hZero⟩,
    ⟨hgr, fun _ x => ⟨hva x, hgr x⟩, fun _ _ => hva, fun _ _ => hpr1, fun _ => hpr2, fun _ _ => hdt, fun _ _ => hno⟩, rfl, rfl, rfl, rfl, rfl, rfl, rfl, rfl⟩

/-- C136 for every square or Huber loss, pair of penalties, starting step size, tolerance and `max_iter`: rounding to `p + 1` bits for every large enough `p`, started at zero, with the default
`backtracking_factor=0.7` and `max_iter_backtracking=100`. -/
example (hn : 0 < n) (hd : 0 < d) (f : LossObj n d) (hf : f.Good) (hlog : ∀ g, f ≠ .log g) {sv : ℝ} (hsv : IsLargestSingular f.mat sv) (hL : 0 < f.lipschitz sv) (pen1 pen2 : PenObj d)
    (hpen1 : pen1.FlGoodE) (hpen2 : pen2.FlGoodE) {s0 : ℝ} (hs0 : 0 < s0) (tol : ℝ) (m : ℕ) (hz : Bool) : ∃ C, ∃ p0, ∀ p ≥ p0, ∃ P : FlTosArgs d,
      FlTosLib (flBits p) (fun t => flBits p (Real.exp t)) (fun s => flBits p (Real.log (1 + s))) f pen1 pen2 P ∧ P.x0 = 0 ∧ P.tol = tol ∧ P.factor = flBits p (7 / 10) ∧ P.maxIter = m + 1 ∧
        P.lsIter = 100 ∧ P.lineSearch = true ∧ P.hZero = hz ∧ P.step = some s0 ∧
        ∃ r, flMinimizeTos (flBits p) P = .ok r ∧ FlTosGuarantee f.gradE pen1.fn pen2.fn (min s0 (1 / 10 / (2 * f.lipschitz sv))) C (2⁻¹ ^ p) tol (m + 1) r := by
  obtain ⟨C, hC, h⟩ := C136_rounded_search_partial hn f hf hsv hL pen1 pen2 hpen1 hpen2 hs0 le_rfl (show (0 : ℝ) < 1 / 10 by norm_num) (norm2 (0 : Fin d → ℝ)) m
  obtain ⟨p0, hp0⟩ := exists_pow_lt_of_lt_one (show 0 < min (1 / C) (1 / 10) from lt_min (by positivity) (by norm_num)) (show (2⁻¹ : ℝ) < 1 by norm_num)
  refine ⟨C, p0, fun p hp => ?_⟩
  have hw : (2⁻¹ : ℝ) ^ p ≤ min (1 / C) (1 / 10) := (pow_le_pow_of_le_one (by norm_num) (by norm_num) hp).trans hp0.le
  have hpos : (0 : ℝ) < 2⁻¹ ^ p := by positivity
  have hr := flBits_rounding (p := p) (eta := 0) le_rfl
  have hhalf : (2⁻¹ : ℝ) ^ (p + 1) = 2⁻¹ ^ p / 2 := by rw [pow_succ]; ring
  have hu : (2⁻¹ : ℝ) ^ (p + 1) ≤ 2⁻¹ ^ p := by rw [hhalf]; linarith
  have hr0 : flBits p 0 = 0 := by have := hr.neg 0; rw [neg_zero] at this; linarith
  obtain ⟨P, hP, hx, ht, hfa, hm, hli, hse, hhz, hst⟩ := exists_flTosLib (flBits p) (fun t => flBits p (Real.exp t)) (fun s => flBits p (Real.log (1 + s))) hn hd f pen1 pen2 hpen1 hpen2 0 tol
    (flBits p (7 / 10)) (m + 1) 100 true hz (some s0)
  have h7 := rel_bounds hr hu (show (0 : ℝ) ≤ 7 / 10 by norm_num)
  have hw10 : (2⁻¹ : ℝ) ^ p ≤ 1 / 10 := hw.trans (min_le_right _ _)
  have hCw : C * 2⁻¹ ^ p ≤ 1 := by
    have := hw.trans (min_le_left _ _)
    rw [le_div_iff₀ hC] at this
    linarith
  obtain ⟨r, er, hg⟩ := h (flBits p) (fun t => flBits p (Real.exp t)) (fun s => flBits p (Real.log (1 + s))) (2⁻¹ ^ (p + 1)) (2⁻¹ ^ p) hr hu (fun g hg => absurd hg (hlog g))
    (fun t _ => ⟨hr.nonneg (Real.exp_pos t).le, by have := rel_err hr hu (Real.exp t); rwa [abs_of_pos (Real.exp_pos t)] at this⟩)
    (fun s hs => by have := rel_err hr hu (Real.log (1 + s)); rwa [abs_of_nonneg (Real.log_nonneg (by linarith))] at this) hCw P hP
    (by rw [hfa]; linarith [h7.1]) (by rw [hfa]; linarith [h7.2]) (by rw [hli]; norm_num) hm s0 hst le_rfl le_rfl (fun j => by rw [hx]; exact hr0) (by rw [hx])
  rw [ht, hm] at hg
  exact ⟨P, hP, hx, ht, hfa, hm, hli, hse, hhz, hst, r, er, hg⟩

/-- The objective value for every square or Huber loss with an l1 penalty on the l1 ball of any radius, in the same arithmetics. -/
example (hn : 0 < n) (hd : 0 < d) (f : LossObj n d) (hf : f.Good) (hlog : ∀ g, f ≠ .log g) {sv : ℝ} (hsv : IsLargestSingular f.mat sv) (hL : 0 < f.lipschitz sv) {alpha beta : ℝ} (ha : 0 < alpha)
    (hb : 0 ≤ beta) {s0 : ℝ} (hs0 : 0 < s0) (tol : ℝ) (m : ℕ) : ∃ C > 0, ∃ p0, ∀ p ≥ p0, ∃ P : FlTosArgs d,
      FlTosLib (flBits p) (fun t => flBits p (Real.exp t)) (fun s => flBits p (Real.log (1 + s))) f (.l1Ball alpha) (.l1Norm beta) P ∧ P.x0 = 0 ∧ P.tol = tol ∧ P.maxIter = m + 1 ∧
        ∃ r, flMinimizeTos (flBits p) P = .ok r ∧ (r.success = true → ∃ x ∈ (PenObj.l1Ball (d := d) alpha).fn.dom, ‖(WithLp.toLp 2 r.x : ℓ²) - x‖ ≤ C * 2⁻¹ ^ p ∧
          ∀ y ∈ (PenObj.l1Ball (d := d) alpha).fn.dom, f.fn x + (PenObj.l1Norm beta).fn.val x ≤ f.fn y + (PenObj.l1Norm beta).fn.val y + C * (r.certificate + C * 2⁻¹ ^ p)) := by
  obtain ⟨xs, hxs, hmin⟩ := exists_minimiser_l1Ball_l1 f hf hsv (beta := beta) ha
  have hpen1 : (PenObj.l1Ball (d := d) alpha).FlGoodE := ha
  have hpen2 : (PenObj.l1Norm (d := d) beta).FlGoodE := hb
  obtain ⟨C, hC, h⟩ := C136_value_partial hn f hf hsv hL (.l1Ball alpha) (.l1Norm beta) hpen1 hpen2 rfl hxs hmin hs0 le_rfl (show (0 : ℝ) < 1 / 10 by norm_num) (norm2 (0 : Fin d → ℝ)) m
  obtain ⟨p0, hp0⟩ := exists_pow_lt_of_lt_one (show 0 < min (1 / C) (1 / 10) from lt_min (by positivity) (by norm_num)) (show (2⁻¹ : ℝ) < 1 by norm_num)
  refine ⟨C, hC, p0, fun p hp => ?_⟩
  have hw : (2⁻¹ : ℝ) ^ p ≤ min (1 / C) (1 / 10) := (pow_le_pow_of_le_one (by norm_num) (by norm_num) hp).trans hp0.le
  have hpos : (0 : ℝ) < 2⁻¹ ^ p := by positivity
  have hr := flBits_rounding (p := p) (eta := 0) le_rfl
  have hhalf : (2⁻¹ : ℝ) ^ (p + 1) = 2⁻¹ ^ p / 2 := by rw [pow_succ]; ring
  have hu : (2⁻¹ : ℝ) ^ (p + 1) ≤ 2⁻¹ ^ p := by rw [hhalf]; linarith
  have hr0 : flBits p 0 = 0 := by have := hr.neg 0; rw [neg_zero] at this; linarith
  obtain ⟨P, hP, hx, ht, hfa, hm, hli, -, -, hst⟩ := exists_flTosLib (flBits p) (fun t => flBits p (Real.exp t)) (fun s => flBits p (Real.log (1 + s))) hn hd f (.l1Ball alpha) (.l1Norm beta) hpen1 hpen2
    0 tol (flBits p (7 / 10)) (m + 1) 100 true false (some s0)
  have h7 := rel_bounds hr hu (show (0 : ℝ) ≤ 7 / 10 by norm_num)
  have hw10 : (2⁻¹ : ℝ) ^ p ≤ 1 / 10 := hw.trans (min_le_right _ _)
  have hCw : C * 2⁻¹ ^ p ≤ 1 := by
    have := hw.trans (min_le_left _ _)
    rw [le_div_iff₀ hC] at this
    linarith
  obtain ⟨r, er, hg⟩ := h (flBits p) (fun t => flBits p (Real.exp t)) (fun s => flBits p (Real.log (1 + s))) (2⁻¹ ^ (p + 1)) (2⁻¹ ^ p) hr hu (fun g hg => absurd hg (hlog g))
    (fun t _ => ⟨hr.nonneg (Real.exp_pos t).le, by have := rel_err hr hu (Real.exp t); rwa [abs_of_pos (Real.exp_pos t)] at this⟩)
    (fun s hs => by have := rel_err hr hu (Real.log (1 + s)); rwa [abs_of_nonneg (Real.log_nonneg (by linarith))] at this) hCw P hP
    (by rw [hfa]; linarith [h7.1]) (by rw [hfa]; linarith [h7.2]) (by rw [hli]; norm_num) hm s0 hst le_rfl le_rfl (fun j => by rw [hx]; exact hr0) (by rw [hx])
  refine ⟨P, hP, hx, ht, hm, r, er, fun hs => ?_⟩
  obtain ⟨-, x, hxd, k1, k2⟩ := hg hs
  refine ⟨x, hxd, k1, fun y hy => ?_⟩
  have k3 : f.fn x + 0 + (PenObj.l1Norm beta).fn.val x ≤ f.fn y + 0 + (PenObj.l1Norm beta).fn.val y + C * (r.certificate + C * 2⁻¹ ^ p) := k2 y hy
  linarith

/-- Doubles with the default arguments meet the hypotheses of `C136_refuted`. -/
example (tol : ℝ) (htol : 0 < tol) : ∃ P : FlTosArgs 1, FlTosLoss (flBits 52) Real.exp (fun s => Real.log (1 + s)) (.square LsWitness.loss) P ∧ P.x0 = (fun _ => 1) ∧ P.tol = tol ∧
    P.factor = flBits 52 (7 / 10) ∧ P.lsIter = 100 ∧ P.maxIter = 1000 ∧ P.step = none ∧ P.hZero = false ∧ ∃ r, flMinimizeTos (flBits 52) P = .ok r ∧ r.success = true ∧ r.x = fun _ => 1 := by
  choose gr hgr using fun x => (LossObj.square LsWitness.loss).exists_flGrad (flBits 52) Real.exp (by norm_num) (by norm_num) x
  choose va hva using fun x => (LossObj.square LsWitness.loss).exists_flValue (flBits 52) Real.exp (fun s => Real.log (1 + s)) (by norm_num) (by norm_num) x
  choose no hno using fun v : Fin 1 → ℝ => exists_flNorm (flBits 52) one_pos v
  choose dt hdt using fun a b : Fin 1 → ℝ => exists_flDot_vec (flBits 52) one_pos fun j => (a j, b j)
  have hP : FlTosLoss (flBits 52) Real.exp (fun s => Real.log (1 + s)) (.square LsWitness.loss) ⟨fun _ x => (va x, gr x), gr, fun _ x => (va x, gr x), fun _ _ => va, fun _ _ v _ => .ok v,
      fun _ v _ => .ok v, fun _ _ => no, fun _ _ => dt, fun _ => 1, tol, 1000, true, none, 100, flBits 52 (7 / 10), false⟩ :=
    ⟨fun _ x => ⟨hva x, hgr x⟩, fun _ x => ⟨hva x, hgr x⟩, fun _ _ => hva, fun _ _ _ _ => rfl, fun _ _ _ => rfl, fun _ _ => hdt, fun _ _ => hno⟩
  obtain ⟨⟨r, e, h1, -, h2, -⟩, -⟩ := C136_refuted nearest_flBits hP rfl htol rfl (by norm_num) (by norm_num)
  exact ⟨_, hP, rfl, rfl, rfl, rfl, rfl, rfl, rfl, r, e, h1, h2⟩

end Copt
