import Verif.Props.SfwStops
import Verif.Props.SfwObjects

/-!
Instances of the conditional theorems about stochastic Frank-Wolfe (C64 to C68, C81, C106): each `example` discharges every hypothesis of one theorem on a
concrete problem and reads off the conclusion.
-/

set_option linter.unusedSectionVars false

namespace Copt
open Spec

/-- C64: batches of 3 out of 10 samples, iteration 5. -/
example : ∀ v, 0 < (stepSizeSfw (id : ℚ → ℚ) v 5 10 3).1 ∧ (stepSizeSfw (id : ℚ → ℚ) v 5 10 3).1 ≤ 1 := (C64_step_sizes id 5 10 3 (by norm_num) (by norm_num)).1

/-- The example problem with two samples `1` and `1`, labels 10 and -8, SAG weights. -/
def exSfw2 (variant : String) : SfwArgs ℚ 2 1 Unit := { exSfwSaga with stepSize := .sublinear, variant := variant, deriv := fun t b => t - b, maxIter := 3 }

/-- C65, C67: the run returns a point of the interval, and the aggregate is the sum of the stored gradients. -/
example : ∃ r x st, minimizeSfw (exSfw2 "SAGA") = .ok r ∧ r.x = some x ∧ x ∈ unitInterval1 ∧ r.final.st = some st ∧
    ∀ c, st.gradAgg c = ∑ i, st.dual i * (exSfw2 "SAGA").a i c := by
  have hx : (exSfw2 "SAGA").x0 ∈ unitInterval1 := by norm_num [unitInterval1, exSfw2, exSfwSaga]
  obtain ⟨r, hr⟩ := C65_returns (exSfw2 "SAGA") unitInterval1 unitInterval1_convex unitLmo_vanilla rfl (by decide) (by decide) rfl hx (by simp [exSfw2]) (by decide)
  obtain ⟨x, h1, h2⟩ := C65_feasible (exSfw2 "SAGA") unitInterval1 unitInterval1_convex unitLmo_vanilla rfl (by decide) rfl hx r hr
  have hst : (match minimizeSfw (exSfw2 "SAGA") with | .ok r => r.final.st.isSome | _ => false) = true := by decide +kernel
  rw [hr] at hst
  obtain ⟨st, hst⟩ := Option.isSome_iff_exists.mp hst
  obtain ⟨-, h3⟩ := C67_minimize (exSfw2 "SAGA") r hr (fun it b hb => by
    have : b ∈ sfwBatches 2 1 [(0 : Fin 2), 1] := hb
    have h2 : ∀ b ∈ sfwBatches 2 1 [(0 : Fin 2), 1], b.Nodup := by decide
    exact h2 b this) st hst
  exact ⟨r, x, st, hr, h1, h2, hst, h3⟩

/-- C65, C67: one step on sample 1, and then the memory, the aggregate and the mean of the SAGA estimates. -/
example : ∃ st, sfwStep (exSfw2 "SAGA") .SAGA 1 (sfwInit (exSfw2 "SAGA")) [1] = .ok (some st) ∧ st.x ∈ unitInterval1 ∧ st.dual 0 = 0 ∧
    st.dual 1 = 1 / (2 : ℕ) * (1 - -8) ∧ (∀ c, st.gradAgg c = ∑ i, st.dual i * (exSfw2 "SAGA").a i c) ∧
    ∃ d : Fin 2 → (Fin 2 → ℚ) × (Fin 2 → ℚ), (∀ i, sfwDual (exSfw2 "SAGA") .SAGA none st [i] = .ok (d i)) ∧
      ∀ c, (∑ i, sfwEstimate (exSfw2 "SAGA") .SAGA st [i] (d i).1 c) / ((2 : ℕ) : ℚ) =
        finiteSumGrad (exSfw2 "SAGA").a (exSfw2 "SAGA").b (exSfw2 "SAGA").deriv 0 st.x c := by
  have hx : (sfwInit (exSfw2 "SAGA")).x ∈ unitInterval1 := by
    show (exSfw2 "SAGA").x0 ∈ unitInterval1
    norm_num [unitInterval1, exSfw2, exSfwSaga]
  obtain ⟨st, h1, h2, -⟩ := C65_step (exSfw2 "SAGA") .SAGA unitInterval1 unitInterval1_convex unitLmo_vanilla rfl (by decide) (by decide) 1
    (sfwInit (exSfw2 "SAGA")) rfl hx [1]
  have hreach : SfwReach (exSfw2 "SAGA") .SAGA [((sfwInit (exSfw2 "SAGA")).x, [1])] st := SfwReach.step (hist := []) 1 SfwReach.init h1
  have hnd : ∀ e ∈ [((sfwInit (exSfw2 "SAGA")).x, [(1 : Fin 2)])], e.2.Nodup := by simp
  obtain ⟨h3, -⟩ := C67_memory _ .SAGA (Or.inr rfl) _ st hreach 0
  obtain ⟨-, h4⟩ := C67_memory _ .SAGA (Or.inr rfl) _ st hreach 1
  refine ⟨st, h1, h2, h3 (by simp), ?_, C67_aggregate _ _ _ st hreach hnd, C67_unbiased _ _ st hreach hnd (by norm_num) none⟩
  rw [h4 [] _ [1] [] rfl (by simp) (by simp)]
  simp [exSfw2, exSfwSaga, sfwInit]

/-- C66: feasibility of the SAG run with Demyanov-Rubinov steps, and the error of the variants that have none. -/
example : (∃ r x, minimizeSfw (exSfw .DR "SAG" 2 0) = .ok r ∧ r.x = some x ∧ x ∈ unitInterval1) ∧
    sfwStep (exSfw .DR "LF" 2 0) .LF 0 (sfwInit (exSfw .DR "LF" 2 0)) [0] = .error .unboundLocalError := by
  obtain ⟨r, h1, h2, -⟩ := of_sfwCheck (show sfwCheck (minimizeSfw (exSfw .DR "SAG" 2 0)) (some fun _ => 1 / 2) false = true by decide +kernel)
  exact ⟨⟨r, _, h1, h2, C66_feasible_partial (exSfw .DR "SAG" 2 0) unitInterval1 unitInterval1_convex unitLmo_exact rfl (by norm_num [exSfw]) rfl rfl
    (by norm_num [unitInterval1, exSfw]) r h1 _ h2⟩, C66_mhk_lf_raise _ rfl _ (Or.inr rfl) _ _ _⟩

/-- C68: the run that reports success had a step of length below the tolerance. -/
example : ∃ v t hist st st' batch, SfwReach (exSfw .sublinear "SAG" 1 2) v hist st ∧ sfwStep (exSfw .sublinear "SAG" 1 2) v t st batch = .ok (some st') ∧
    ∑ c, |st'.x c - st.x c| < 2 := by
  obtain ⟨r₁, -, h1, -, h3, -⟩ := C68_refuted
  exact C68_success_partial _ r₁ h1 h3

/-- The problem of `C81_refuted` with Demyanov-Rubinov steps. -/
noncomputable def exPairDR : SfwArgs ℝ 1 1 (L1Rep ℝ 1) where
  deriv := fun x b => x - b
  a := fun _ _ => 1
  b := fun _ => 1 / 2
  x0 := l1Vertex 1 (1, 0)
  lmo := l1PairOracle 1
  x0Rep := (1, 0)
  batchSize := 1
  stepSize := .DR
  lipschitz := some 1
  maxIter := 3
  tol := 0
  variant := "SAG"
  lmoVariant := "pairwise"
  order := fun _ => [0]
  cbrtSq := id

/-- C81: the pairwise SAG run on `[-1, 1]` with Demyanov-Rubinov steps returns, in the ball, with an active set that represents the point. -/
example : (∃ r, minimizeSfw exPairDR = .ok r ∧ ∀ x, r.x = some x → x ∈ l1Ball (1 : ℝ)) ∧
    ∃ r, minimizeSfw exPairDR = .ok r ∧ ∀ st, r.final.st = some st → ∃ act, st.active = some act ∧
      Decomp (l1Vertex2 1) (fun r => l1Vertex 1 r ∈ l1Ball (1 : ℝ)) act (WithLp.toLp 2 st.x) := by
  have hx : exPairDR.x0 ∈ l1Ball (1 : ℝ) := by simp [exPairDR, l1Ball, l1Vertex, norm1]
  refine ⟨C81_l1_DR_partial exPairDR (by norm_num) (by norm_num) rfl rfl rfl (by norm_num) rfl rfl rfl hx (by decide) (by decide), ?_⟩
  obtain ⟨r, h1, -, h2⟩ := C81_pairwise_DR_partial exPairDR (l1Vertex2 1) (fun r => l1Vertex 1 r ∈ l1Ball (1 : ℝ)) (l1PairOracle_spec (by norm_num) (by norm_num)) rfl rfl
    (by norm_num) rfl rfl rfl hx (by decide) (by decide)
  exact ⟨r, h1, h2⟩

/-! ### C106 -/

/-- Logistic regression on the samples `(1, 2)`, `(0, -1)` over the l1 ball of radius 1, started at the vertex `(1, 0)`. -/
noncomputable def exSfwLog (variant : String) : SfwArgs ℝ 2 2 (L1Rep ℝ 2) :=
  sfwL1 .log ![![1, 2], ![0, -1]] ![1, 0] 1 ![1, 0] (1, 0) variant 1 10 0 fun _ => []

theorem exSfwLog_regular (variant : String) : SfwRegular (exSfwLog variant) (l1Ball 1) VRLoss.log.phi VRLoss.log.curv (2 * 1 * 2) :=
  sfwL1_regular .log (by norm_num) (by norm_num) (by norm_num) (by simp [l1Ball, norm1]) (by norm_num) (by norm_num) (by
    intro i c
    fin_cases i <;> fin_cases c <;> norm_num)

/-- C106: the SAG, SAGA, MHK and LF runs return points of the ball for every sequence of draws. -/
example : (∃ x : SfwDraws 2 1 10 → (Fin 2 → ℝ), ∀ ws, x ws ∈ l1Ball (1 : ℝ) ∧ ∃ r, minimizeSfw { exSfwLog "SAGA" with order := sfwOrder 10 ws } = .ok r ∧ r.x = some (x ws)) ∧
    (∃ x : SfwDraws 2 1 10 → (Fin 2 → ℝ), ∀ ws, x ws ∈ l1Ball (1 : ℝ) ∧ ∃ r, minimizeSfw { exSfwLog "MHK" with order := sfwOrder 10 ws } = .ok r ∧ r.x = some (x ws)) ∧
    ∃ x : SfwDraws 2 1 10 → (Fin 2 → ℝ), ∀ ws, x ws ∈ l1Ball (1 : ℝ) ∧ ∃ r, minimizeSfw { exSfwLog "LF" with order := sfwOrder 10 ws } = .ok r ∧ r.x = some (x ws) := by
  obtain ⟨x1, h1, -⟩ := C106_sag_saga (exSfwLog_regular "SAGA") (le_refl _) (Or.inr rfl) (show 0 < 10 by norm_num)
  obtain ⟨x2, h2, -⟩ := C106_mhk (exSfwLog_regular "MHK") (le_refl _) rfl (fun _ _ => rfl) (show 0 < 10 by norm_num)
  obtain ⟨x3, h3, -⟩ := C106_lf (exSfwLog_regular "LF") (le_refl _) rfl (show 0 < 10 by norm_num)
  exact ⟨⟨x1, h1⟩, ⟨x2, h2⟩, ⟨x3, h3⟩⟩

example (variant : String) (hv : variant = "SAG" ∨ variant = "SAGA" ∨ variant = "MHK" ∨ variant = "LF") : ∃ K : ℝ, 0 ≤ K ∧ ∀ E : ℕ, 0 < E →
    ∃ x, SfwReturns (exSfwLog variant) E x ∧ sfwMean (exSfwLog variant) E (fun ws => finiteSum (exSfwLog variant).a (exSfwLog variant).b VRLoss.log.phi 0 (x ws) -
      finiteSum (exSfwLog variant).a (exSfwLog variant).b VRLoss.log.phi 0 ![0, 1]) ≤ K / ((E * (2 / 1) : ℕ) : ℝ) ^ (1 / 3 : ℝ) := by
  obtain ⟨K, h0, h⟩ := C106_converges (exSfwLog_regular variant) (le_refl _) hv (fun _ _ => rfl) (z := ![0, 1]) (by simp [l1Ball, norm1])
  exact ⟨K, h0, fun E hE => by obtain ⟨x, h1, -, h3⟩ := h E hE; exact ⟨x, h1, h3⟩⟩

/-- C106: logistic regression on two samples over the l1 ball of radius 1, started at the vertex `(1, 0)`; every variant converges in mean. -/
example (variant : String) (hv : variant = "SAG" ∨ variant = "SAGA" ∨ variant = "MHK" ∨ variant = "LF") :
    ∃ x : ∀ E : ℕ, SfwDraws 2 1 E → (Fin 2 → ℝ),
      ∀ z ∈ l1Ball (1 : ℝ), ∀ eps : ℝ, 0 < eps → ∃ E₀ : ℕ, ∀ E, E₀ ≤ E →
        (∑ ws, VRLoss.log.fn (![![1, 2], ![0, -1]] : Fin 2 → Fin 2 → ℝ) ![1, 0] 0 (x E ws)) / (Fintype.card (SfwDraws 2 1 E) : ℝ) ≤
          VRLoss.log.fn (![![1, 2], ![0, -1]] : Fin 2 → Fin 2 → ℝ) ![1, 0] 0 z + eps := by
  obtain ⟨x, -, h⟩ := C106_library .log (A := ![![1, 2], ![0, -1]]) (b := ![1, 0]) (alpha := 1) (x0 := ![1, 0]) (rep := (1, 0)) (variant := variant) (s := 1) (tol := 0)
    (by norm_num) (by norm_num) (by norm_num) (by simp [l1Ball, norm1]) (by norm_num) (by norm_num) (le_refl _) hv
  exact ⟨x, h⟩

/-- C106: least squares with the samples `(1, 0)`, `(0, 1)` and labels `1/2`, 0; the minimiser over the ball is `(1/2, 0)` and runs end far from it with
vanishing probability. -/
example : ∃ x : ∀ E : ℕ, SfwDraws 2 1 E → (Fin 2 → ℝ), ∀ delta eps : ℝ, 0 < delta → 0 < eps → ∃ E₀ : ℕ, ∀ E, E₀ ≤ E →
    ({ws | VRLoss.square.fn (fun i c => if i = c then 1 else 0) (fun i => if i = 0 then 1 / 2 else 0) 0 ![1 / 2, 0] + delta ≤
      VRLoss.square.fn (fun i c => if i = c then 1 else 0) (fun i => if i = 0 then 1 / 2 else 0) 0 (x E ws)}.ncard : ℝ) ≤
      eps * (Fintype.card (SfwDraws 2 1 E) : ℝ) := by
  obtain ⟨x, -, h⟩ := C106_probability .square (A := fun i c : Fin 2 => if i = c then 1 else 0) (b := fun i => if i = 0 then 1 / 2 else 0) (alpha := 1)
    (x0 := ![0, 1]) (rep := (1, 1)) (variant := "SAGA") (s := 1) (tol := 0) (by norm_num) (by norm_num) (by norm_num)
    (by simp [l1Ball, norm1, Fin.sum_univ_two]) (by norm_num) (by norm_num) (le_refl _) (Or.inr (Or.inl rfl)) (z := ![1 / 2, 0])
    (by simp [l1Ball, norm1, Fin.sum_univ_two]; norm_num [abs_of_pos]) (fun y _ => by
      rw [VRLoss.fn_eq, VRLoss.fn_eq]
      simp [finiteSum, VRLoss.phi, Fin.sum_univ_two]
      positivity)
  exact ⟨x, h⟩

end Copt
