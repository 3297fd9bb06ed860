import Verif.Props.SfwLf
import Verif.Props.VRObjects
import Verif.Props.Nonexpansive

/-!
# Stochastic Frank-Wolfe with the losses and the l1 ball of the library

`f.partial_deriv`, `A` dense, `copt.constraint.L1Ball(alpha).lmo`, the default `step_size='sublinear'` and `lmo_variant='vanilla'`, every `variant`.  The contract
`SfwRegular` of C106 is discharged, so that the statements are about the documented call.
-/

set_option linter.unusedSectionVars false

namespace Copt

open Spec

variable {n p : ℕ}

/-- `L1Ball(alpha).lmo` as a function (it does not raise when there is a coordinate, `C05_l1_lmo_correct`), constraint.py:95-128. -/
noncomputable def l1Oracle (alpha : ℝ) (u x : Fin p → ℝ) (_ : Option (ActiveSet (L1Rep ℝ p) ℝ)) : LmoOut (Fin p → ℝ) (L1Rep ℝ p) ℝ :=
  match L1Ball.lmo alpha u x with
  | .ok o => o
  | .error _ => { dir := 0, fwRep := none, awayRep := none, maxStep := 0 }

theorem l1Oracle_spec (hp : 0 < p) {alpha : ℝ} (ha : 0 ≤ alpha) : IsExactLmo (l1Ball (n := p) alpha) (l1Oracle alpha) := by
  intro u x
  obtain ⟨o, rep, h1, h2, h3, h4, h5, h6⟩ := C05_l1_lmo_correct hp alpha ha u x
  have e : l1Oracle alpha u x none = o := by unfold l1Oracle; rw [h1]
  rw [e]
  exact ⟨by rw [h4]; norm_num, by rw [h4], _, h6.1, h5, fun z hz => h6.2 z hz⟩

/-- The call `minimize_sfw(f.partial_deriv, A, b, x0, L1Ball(alpha).lmo, batch_size=s, variant=variant, max_iter=E, tol=tol)`, randomized.py:734-750. -/
noncomputable def sfwL1 (f : VRLoss) (A : Fin n → Fin p → ℝ) (b : Fin n → ℝ) (alpha : ℝ) (x0 : Fin p → ℝ) (rep : L1Rep ℝ p) (variant : String) (s E : ℕ) (tol : ℝ)
    (order : ℕ → List (Fin n)) : SfwArgs ℝ n p (L1Rep ℝ p) :=
  { deriv := f.deriv, a := A, b := b, x0 := x0, lmo := l1Oracle alpha, x0Rep := rep, batchSize := s, stepSize := .sublinear, lipschitz := none, maxIter := E,
    tol := tol, variant := variant, lmoVariant := "vanilla", order := order, cbrtSq := fun y => y ^ (2 / 3 : ℝ) }

variable (f : VRLoss) {A : Fin n → Fin p → ℝ} {b : Fin n → ℝ} {alpha : ℝ} {x0 : Fin p → ℝ} {rep : L1Rep ℝ p} {variant : String} {s E : ℕ} {tol : ℝ}
  {order : ℕ → List (Fin n)}

theorem l1_pred_bound {R : ℝ} (hR : ∀ i c, |A i c| ≤ R) (hn : 0 < n) (hp : 0 < p) {x : Fin p → ℝ} (hx : x ∈ l1Ball alpha) (i : Fin n) :
    |∑ c, A i c * x c| ≤ alpha * R := by
  have hR0 : 0 ≤ R := (abs_nonneg _).trans (hR ⟨0, hn⟩ ⟨0, hp⟩)
  have h1 := dot_le_of_l1 (A i) x alpha R (hR i) hR0 hx
  have h2 := dot_le_of_l1 (fun c => -A i c) x alpha R (fun c => by rw [abs_neg]; exact hR i c) hR0 hx
  have e : dot (fun c => -A i c) x = -dot (A i) x := by unfold dot; simp [Finset.sum_neg_distrib]
  rw [e] at h2
  exact abs_le.mpr ⟨by unfold dot at h2; linarith, h1⟩

theorem sfwL1_regular (hn : 0 < n) (hp : 0 < p) (ha : 0 ≤ alpha) (hx0 : x0 ∈ l1Ball alpha) (hs : 0 < s) (hsn : s ≤ n) {R : ℝ} (hR : ∀ i c, |A i c| ≤ R) :
    SfwRegular (sfwL1 f A b alpha x0 rep variant s E tol order) (l1Ball alpha) f.phi f.curv (2 * alpha * R) where
  samples := hn
  batch := hs
  batch_le := hsn
  step := rfl
  vanilla := rfl
  conv := fun x hx y hy t h0 h1 => l1Ball_convex alpha x hx y hy t h0 h1
  lmo := l1Oracle_spec hp ha
  start := hx0
  deriv := f.hasDeriv
  mono := f.mono
  lip := f.lip
  lip_nonneg := f.curv_pos.le
  diam := fun x hx y hy i => by
    have h1 := l1_pred_bound hR hn hp hx i
    have h2 := l1_pred_bound hR hn hp hy i
    calc |sfwDot (sfwL1 f A b alpha x0 rep variant s E tol order) x i - sfwDot (sfwL1 f A b alpha x0 rep variant s E tol order) y i|
        ≤ |∑ c, A i c * x c| + |∑ c, A i c * y c| := abs_sub _ _
      _ ≤ 2 * alpha * R := by linarith

/-- All draws of the batches of `E` epochs, each batch of size `s` without replacement. -/
abbrev SfwDraws (n s E : ℕ) : Type := Fin (E * (n / s)) → (Fin s ↪ Fin n)

/-- C106 for the losses and the l1 ball of the library: for every `variant`, with a tolerance that never stops the run (`tol=0`, as in every example of the
repository), every run returns a point of the ball, and whatever the accuracy `eps`, from some `max_iter` on the mean over the draws of the objective
of the returned point is at most `eps` above its value at any point of the ball. -/
theorem C106_library (hn : 0 < n) (hp : 0 < p) (ha : 0 ≤ alpha) (hx0 : x0 ∈ l1Ball alpha) (hs : 0 < s) (hsn : s ≤ n) (htol : tol ≤ 0)
    (hv : variant = "SAG" ∨ variant = "SAGA" ∨ variant = "MHK" ∨ variant = "LF") :
    ∃ x : ∀ E : ℕ, SfwDraws n s E → (Fin p → ℝ),
      (∀ E, 0 < E → ∀ ws, x E ws ∈ l1Ball alpha ∧
        ∃ r, minimizeSfw (sfwL1 f A b alpha x0 rep variant s E tol (sfwOrder E ws)) = .ok r ∧ r.x = some (x E ws)) ∧
      ∀ z ∈ l1Ball alpha, ∀ eps : ℝ, 0 < eps → ∃ E₀ : ℕ, ∀ E, E₀ ≤ E →
        (∑ ws, f.fn A b 0 (x E ws)) / (Fintype.card (SfwDraws n s E) : ℝ) ≤ f.fn A b 0 z + eps := by
  obtain ⟨R, hR⟩ : ∃ R : ℝ, ∀ i c, |A i c| ≤ R := by
    refine ⟨∑ i, ∑ c, |A i c|, fun i c => ?_⟩
    calc |A i c| ≤ ∑ c, |A i c| := Finset.single_le_sum (f := fun c => |A i c|) (fun _ _ => abs_nonneg _) (Finset.mem_univ c)
      _ ≤ _ := Finset.single_le_sum (f := fun i => ∑ c, |A i c|) (fun _ _ => Finset.sum_nonneg fun _ _ => abs_nonneg _) (Finset.mem_univ i)
  have hreg := sfwL1_regular f (b := b) (rep := rep) (variant := variant) (E := 0) (tol := tol) (order := fun _ => []) hn hp ha hx0 hs hsn hR
  have key := fun z hz => C106_converges hreg htol hv (fun y _ => rfl) (z := z) hz
  have hx0' : ∀ E : ℕ, ∃ x : SfwDraws n s E → (Fin p → ℝ), 0 < E → ∀ ws, x ws ∈ l1Ball alpha ∧
        ∃ r, minimizeSfw (sfwL1 f A b alpha x0 rep variant s E tol (sfwOrder E ws)) = .ok r ∧ r.x = some (x ws) := by
    intro E
    rcases Nat.eq_zero_or_pos E with h | h
    · exact ⟨fun _ => x0, fun h' => absurd h' (by omega)⟩
    · obtain ⟨K, -, hK⟩ := key x0 hx0
      obtain ⟨x, h1, h2, -⟩ := hK E h
      exact ⟨x, fun _ ws => ⟨h2 ws, h1 ws⟩⟩
  choose x hx using hx0'
  refine ⟨x, hx, fun z hz eps heps => ?_⟩
  obtain ⟨K, hK0, hK⟩ := key z hz
  obtain ⟨N, hN⟩ := exists_nat_gt ((K / eps) ^ 3)
  refine ⟨N + 1, fun E hE => ?_⟩
  have hE0 : 0 < E := by omega
  obtain ⟨y, h1, -, h3⟩ := hK E hE0
  have hxy : y = x E := by
    funext ws
    obtain ⟨r, e1, e2⟩ := h1 ws
    obtain ⟨r', e3, e4⟩ := (hx E hE0 ws).2
    have e5 : r = r' := Except.ok.inj (e1.symm.trans e3)
    subst e5
    rw [e2] at e4
    exact Option.some.inj e4
  rw [hxy] at h3
  set T : ℝ := ((E * (n / s) : ℕ) : ℝ) with hT
  have hns : 1 ≤ n / s := Nat.div_pos hsn hs
  have hTE : (E : ℝ) ≤ T := by
    rw [hT]; exact_mod_cast Nat.le_mul_of_pos_right E hns
  have hTN : (K / eps) ^ 3 ≤ T := by
    have : (N : ℝ) ≤ E := by exact_mod_cast (by omega : N ≤ E)
    linarith
  have hT0 : 0 < T := lt_of_lt_of_le (by exact_mod_cast hE0) hTE
  have hroot : K / eps ≤ T ^ (1 / 3 : ℝ) := by
    have h0 : 0 ≤ K / eps := by positivity
    calc K / eps = ((K / eps) ^ 3) ^ (1 / 3 : ℝ) := by
          rw [← Real.rpow_natCast, ← Real.rpow_mul h0]; norm_num
      _ ≤ _ := Real.rpow_le_rpow (by positivity) hTN (by norm_num)
  have hroot0 : 0 < T ^ (1 / 3 : ℝ) := Real.rpow_pos_of_pos hT0 _
  have h4 : K / T ^ (1 / 3 : ℝ) ≤ eps := by
    rw [div_le_iff₀ hroot0]
    rw [div_le_iff₀ heps] at hroot
    linarith
  have h5 : sfwMean (sfwL1 f A b alpha x0 rep variant s 0 tol fun _ => []) E (fun ws => finiteSum A b f.phi 0 (x E ws) - finiteSum A b f.phi 0 z) ≤ eps :=
    h3.trans h4
  have hne : Nonempty (Fin s ↪ Fin n) := ⟨Fin.castLEEmb hsn⟩
  have hcard : (0 : ℝ) < (Fintype.card (SfwDraws n s E) : ℝ) := by
    exact_mod_cast Fintype.card_pos
  have h6 : sfwMean (sfwL1 f A b alpha x0 rep variant s 0 tol fun _ => []) E (fun ws => finiteSum A b f.phi 0 (x E ws) - finiteSum A b f.phi 0 z) =
      (∑ ws, f.fn A b 0 (x E ws)) / (Fintype.card (SfwDraws n s E) : ℝ) - f.fn A b 0 z := by
    have e : ∀ y, f.fn A b 0 y = finiteSum A b f.phi 0 y := fun y => f.fn_eq A b 0 y
    simp only [e]
    show (∑ ws : SfwDraws n s E, (finiteSum A b f.phi 0 (x E ws) - finiteSum A b f.phi 0 z)) / (Fintype.card (SfwDraws n s E) : ℝ) = _
    rw [Finset.sum_sub_distrib, Finset.sum_const, Finset.card_univ, nsmul_eq_mul, sub_div, mul_div_cancel_left₀ _ hcard.ne']
  linarith

/-- C106, the fraction of the draws that end far from a minimiser: it tends to `0`. -/
theorem C106_probability (hn : 0 < n) (hp : 0 < p) (ha : 0 ≤ alpha) (hx0 : x0 ∈ l1Ball alpha) (hs : 0 < s) (hsn : s ≤ n) (htol : tol ≤ 0)
    (hv : variant = "SAG" ∨ variant = "SAGA" ∨ variant = "MHK" ∨ variant = "LF") {z : Fin p → ℝ} (hz : z ∈ l1Ball alpha)
    (hmin : ∀ y ∈ l1Ball alpha, f.fn A b 0 z ≤ f.fn A b 0 y) :
    ∃ x : ∀ E : ℕ, SfwDraws n s E → (Fin p → ℝ),
      (∀ E, 0 < E → ∀ ws, x E ws ∈ l1Ball alpha ∧
        ∃ r, minimizeSfw (sfwL1 f A b alpha x0 rep variant s E tol (sfwOrder E ws)) = .ok r ∧ r.x = some (x E ws)) ∧
      ∀ delta eps : ℝ, 0 < delta → 0 < eps → ∃ E₀ : ℕ, ∀ E, E₀ ≤ E →
        ({ws | f.fn A b 0 z + delta ≤ f.fn A b 0 (x E ws)}.ncard : ℝ) ≤ eps * (Fintype.card (SfwDraws n s E) : ℝ) := by
  obtain ⟨x, h1, h2⟩ := C106_library f (A := A) (b := b) (rep := rep) hn hp ha hx0 hs hsn htol hv
  refine ⟨x, h1, fun delta eps hd he => ?_⟩
  obtain ⟨E₀, hE⟩ := h2 z hz (eps * delta) (by positivity)
  refine ⟨E₀ + 1, fun E hE' => ?_⟩
  have h3 := hE E (by omega)
  have hne : Nonempty (Fin s ↪ Fin n) := ⟨Fin.castLEEmb hsn⟩
  have hcard : (0 : ℝ) < (Fintype.card (SfwDraws n s E) : ℝ) := by exact_mod_cast Fintype.card_pos
  classical
  have hset : {ws | f.fn A b 0 z + delta ≤ f.fn A b 0 (x E ws)} =
      ((Finset.univ.filter fun ws => f.fn A b 0 z + delta ≤ f.fn A b 0 (x E ws) : Finset (SfwDraws n s E)) : Set (SfwDraws n s E)) := by
    ext ws; simp
  rw [hset, Set.ncard_coe_finset]
  have h4 : ∑ ws, (if f.fn A b 0 z + delta ≤ f.fn A b 0 (x E ws) then delta else 0) ≤ ∑ ws, (f.fn A b 0 (x E ws) - f.fn A b 0 z) := by
    refine Finset.sum_le_sum fun ws _ => ?_
    split
    · linarith
    · have := hmin _ (h1 E (by omega) ws).1; linarith
  rw [← Finset.sum_filter, Finset.sum_const, nsmul_eq_mul, Finset.sum_sub_distrib, Finset.sum_const, Finset.card_univ, nsmul_eq_mul] at h4
  rw [div_le_iff₀ hcard] at h3
  have h5 : ((Finset.univ.filter fun ws => f.fn A b 0 z + delta ≤ f.fn A b 0 (x E ws)).card : ℝ) * delta ≤ eps * (Fintype.card (SfwDraws n s E) : ℝ) * delta := by
    linarith
  exact le_of_mul_le_mul_right h5 hd

/-- The hypotheses of `C106_library` are met: two samples, two features, the ball of radius 1, starting at a vertex; `x = (1/2, 0)` minimises the square loss. -/
example : ∃ (A : Fin 2 → Fin 2 → ℝ) (b : Fin 2 → ℝ) (x0 z : Fin 2 → ℝ), x0 ∈ l1Ball (1 : ℝ) ∧ z ∈ l1Ball (1 : ℝ) ∧ x0 ≠ z ∧
    (∀ y ∈ l1Ball (1 : ℝ), VRLoss.square.fn A b 0 z ≤ VRLoss.square.fn A b 0 y) ∧ VRLoss.square.fn A b 0 z < VRLoss.square.fn A b 0 x0 := by
  refine ⟨fun i c => if i = c then 1 else 0, fun i => if i = 0 then 1 / 2 else 0, ![0, 1], ![1 / 2, 0], ?_, ?_, ?_, ?_, ?_⟩
  · simp [l1Ball, norm1, Fin.sum_univ_two]
  · simp [l1Ball, norm1, Fin.sum_univ_two]; norm_num [abs_of_pos]
  · intro h; have := congrFun h 0; norm_num at this
  · intro y _
    rw [VRLoss.fn_eq, VRLoss.fn_eq]
    simp [finiteSum, VRLoss.phi, Fin.sum_univ_two]
    positivity
  · rw [VRLoss.fn_eq, VRLoss.fn_eq]
    simp [finiteSum, VRLoss.phi, Fin.sum_univ_two]
    norm_num

end Copt
