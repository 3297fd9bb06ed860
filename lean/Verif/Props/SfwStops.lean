import Verif.Props.Sfw
import Verif.Props.FrankWolfePairwise

/-! # `minimize_sfw`: the `'DR'` step size, stopping, and the pairwise oracle -/

set_option linter.unusedSectionVars false

namespace Copt

open Spec

section General
variable {K : Type} [Field K] [LinearOrder K] [IsStrictOrderedRing K] {n p : ℕ} {V : Type} [DecidableEq V]

/-! ### C66 -/

/-- C66 (what is accepted): with `step_size='DR'` the variants MHK and LF raise UnboundLocalError on the first batch (`step_size_agg`). -/
theorem C66_mhk_lf_raise (P : SfwArgs K n p V) (hs : P.stepSize = .DR) (v : SfwVariant) (hv : v = .MHK ∨ v = .LF) (t : ℕ) (st : SfwState K n p V)
    (batch : List (Fin n)) : sfwStep P v t st batch = .error .unboundLocalError := by
  unfold sfwStep
  rw [if_neg (by rw [hs]; simp), if_pos hs]
  rcases hv with rfl | rfl <;> rfl

/-- An exact oracle for `C`: it returns `s - x` where `s` in `C` maximises `⟨u, ·⟩` over `C`, and a largest step in `[0, 1]`. -/
def IsExactLmo (C : Set (Fin p → K)) (lmo : (Fin p → K) → (Fin p → K) → Option (ActiveSet V K) → LmoOut (Fin p → K) V K) : Prop :=
  ∀ u x, 0 ≤ (lmo u x none).maxStep ∧ (lmo u x none).maxStep ≤ 1 ∧
    ∃ s ∈ C, (lmo u x none).dir = (fun c => s c - x c) ∧ ∀ z ∈ C, ∑ c, u c * z c ≤ ∑ c, u c * s c

/-- One `'DR'` step of the SAG variant from a point of the set. -/
theorem sag_DR_step (P : SfwArgs K n p V) (C : Set (Fin p → K))
    (hC : ∀ x ∈ C, ∀ y ∈ C, ∀ t : K, 0 ≤ t → t ≤ 1 → (fun c => (1 - t) * x c + t * y c) ∈ C) (hlmo : IsExactLmo C P.lmo) (hs : P.stepSize = .DR)
    (hL : 0 < P.lipschitz.getD 0) (t : ℕ) (st st' : SfwState K n p V) (hact : st.active = none) (hx : st.x ∈ C) (batch : List (Fin n))
    (h : sfwStep P .SAG t st batch = .ok (some st')) : st'.x ∈ C ∧ st'.active = none := by
  obtain ⟨-, d, g, act, -, -, hg, ha, rfl⟩ := sfwStep_ok h
  rw [hact] at ha hg
  have hg := hg hs
  obtain ⟨m0, m1, s, hsC, hdir, hopt⟩ := hlmo (fun c => -sfwEstimate P .SAG st batch d.1 c) st.x
  have hest : (fun c => -(st.gradAgg c + sfwDelta P batch st.dual d.1 c)) = fun c => -sfwEstimate P .SAG st batch d.1 c := rfl
  have hcert : 0 ≤ ∑ c, -(st.gradAgg c + sfwDelta P batch st.dual d.1 c) * (P.lmo (fun c => -sfwEstimate P .SAG st batch d.1 c) st.x none).dir c := by
    rw [hdir]
    have := hopt st.x hx
    have e : ∑ c, -(st.gradAgg c + sfwDelta P batch st.dual d.1 c) * (s c - st.x c) =
        ∑ c, -sfwEstimate P .SAG st batch d.1 c * s c - ∑ c, -sfwEstimate P .SAG st batch d.1 c * st.x c := by
      rw [← Finset.sum_sub_distrib]
      exact Finset.sum_congr rfl fun c _ => by rw [congrFun hest c]; ring
    rw [e]; linarith
  have hg01 : 0 ≤ g ∧ g ≤ 1 := by
    unfold stepSizeDR at hg
    split at hg
    · simp at hg
    simp only [Option.some.injEq] at hg
    subst hg
    refine ⟨le_min (div_nonneg hcert (mul_nonneg (Finset.sum_nonneg fun c _ => sq_nonneg _) hL.le)) m0, (min_le_right _ _).trans m1⟩
  refine ⟨?_, ?_⟩
  · show (fun c => st.x c + g * (P.lmo (fun c => -sfwEstimate P .SAG st batch d.1 c) st.x st.active).dir c) ∈ C
    rw [hact, hdir]
    exact step_in C hC hx hsC hg01.1 hg01.2
  · simp only [fwUpdateActive, Except.ok.injEq] at ha
    exact ha.symm

/-- C66, for the SAG variant and an exact oracle: whenever the result is not `nan`, it is in the set.  Missing with respect to the full claim: results
that are `nan` (`C66_refuted_nan`) and the SAGA variant, for which it fails (`C66_refuted_saga`); MHK and LF raise (`C66_mhk_lf_raise`). -/
theorem C66_feasible_partial (P : SfwArgs K n p V) (C : Set (Fin p → K))
    (hC : ∀ x ∈ C, ∀ y ∈ C, ∀ t : K, 0 ≤ t → t ≤ 1 → (fun c => (1 - t) * x c + t * y c) ∈ C) (hlmo : IsExactLmo C P.lmo) (hs : P.stepSize = .DR)
    (hL : 0 < P.lipschitz.getD 0) (hv : P.variant = "SAG") (hvan : P.lmoVariant = "vanilla") (hx : P.x0 ∈ C) (r : SfwResult K n p V)
    (h : minimizeSfw P = .ok r) : ∀ x, r.x = some x → x ∈ C := by
  obtain ⟨v, hv', -, -, -, -, hl, hrx, -, -⟩ := minimizeSfw_ok h
  rw [hv] at hv'
  obtain rfl : v = .SAG := by
    have : parseVariant "SAG" = some .SAG := by simp [parseVariant]
    rw [this] at hv'; exact (Option.some.inj hv').symm
  intro x hxr
  rw [hrx] at hxr
  obtain ⟨st, hst, rfl⟩ := Option.map_eq_some_iff.mp hxr
  obtain ⟨hist, hreach, -⟩ := sfwLoop_reach (Q := fun _ => True) (fun _ _ _ => trivial) _ _ _ _ hl
    (fun st hs => by simp only [Option.some.injEq] at hs; rw [← hs]; exact ⟨[], SfwReach.init, by simp⟩) st hst
  have key : ∀ hist st, SfwReach P .SAG hist st → st.x ∈ C ∧ st.active = none := by
    intro hist st hr
    induction hr with
    | init =>
      refine ⟨hx, ?_⟩
      unfold sfwInit
      rw [if_neg (by rw [hvan]; decide)]
    | step t _ hstep ih => exact sag_DR_step P C hC hlmo hs hL t _ _ ih.2 ih.1 _ hstep
  exact (key hist st hreach).1

/-! ### C68 -/

/-- C68 (refutes the documented callable): a callable `step_size` -- or any value other than `'sublinear'` and `'DR'` -- raises UnboundLocalError on
the first batch. -/
theorem C68_callable_raises (P : SfwArgs K n p V) (hs : P.stepSize = .other) (v : SfwVariant) (hv : parseVariant P.variant = some v)
    (hl : P.lmoVariant = "vanilla" ∨ P.lmoVariant = "pairwise") (hm : 0 < P.maxIter) (hb : 0 < P.batchSize) (ho : P.order 0 ≠ []) :
    minimizeSfw P = .error .unboundLocalError := by
  unfold minimizeSfw
  rw [hv]
  simp only
  rw [if_neg (not_not.mpr hl), if_neg (by rw [hs]; simp)]
  obtain ⟨k, hk⟩ : ∃ k, P.maxIter = k + 1 := ⟨P.maxIter - 1, by omega⟩
  rw [hk]
  simp only
  rw [if_neg (by omega)]
  have hne : sfwBatches n P.batchSize (P.order 0) ≠ [] := by
    unfold sfwBatches
    rw [Ne, List.map_eq_nil_iff, List.range_eq_nil, Nat.div_eq_zero_iff]
    have := List.length_pos_iff.mpr ho
    omega
  obtain ⟨b, bs, hbs⟩ := List.exists_cons_of_ne_nil hne
  have : sfwLoop P v (k + 1) 0 { st := some (sfwInit P), step := 0, success := false } = .error .unboundLocalError := by
    unfold sfwLoop
    rw [hbs]
    unfold sfwInner
    simp only [sfwStep, if_pos hs]
    rfl
  rw [this]
  rfl

/-- C68 (refutes stopping): whatever happens, all `max_iter` epochs are run: `nit` is always `max_iter - 1`. -/
theorem C68_never_stops (P : SfwArgs K n p V) (r : SfwResult K n p V) (h : minimizeSfw P = .ok r) : r.nit = P.maxIter - 1 := by
  obtain ⟨v, -, -, -, -, -, -, -, -, hn⟩ := minimizeSfw_ok h
  exact hn

/-- C68, what `success` means: some step of the run changed `x` by less than `tol` in the l1 norm.  Missing: the run does not stop there
(`C68_refuted`), and callables are not supported (`C68_callable_raises`). -/
theorem C68_success_partial (P : SfwArgs K n p V) (r : SfwResult K n p V) (h : minimizeSfw P = .ok r) (hsucc : r.success = true) :
    ∃ v t hist st st' batch, SfwReach P v hist st ∧ sfwStep P v t st batch = .ok (some st') ∧ ∑ c, |st'.x c - st.x c| < P.tol := by
  obtain ⟨v, -, -, -, -, -, hl, -, hs, -⟩ := minimizeSfw_ok h
  rw [hs] at hsucc
  let Q : SfwRun K n p V → Prop := fun r => (∀ st, r.st = some st → ∃ hist, SfwReach P v hist st) ∧
    (r.success = true → ∃ t hist st st' batch, SfwReach P v hist st ∧ sfwStep P v t st batch = .ok (some st') ∧ ∑ c, |st'.x c - st.x c| < P.tol)
  have inner : ∀ (bs : List (List (Fin n))) (r r' : SfwRun K n p V), sfwInner P v bs r = .ok r' → Q r → Q r' := by
    intro bs
    induction bs with
    | nil =>
      intro r r' h hr
      simp only [sfwInner, Except.ok.injEq] at h
      rw [← h]; exact hr
    | cons b bs ih =>
      intro r r' h hr
      unfold sfwInner at h
      cases hst : r.st with
      | none =>
        rw [hst] at h
        exact ih _ _ h ⟨fun st hs => by simp at hs, hr.2⟩
      | some st =>
        rw [hst] at h
        simp only [bind, Except.bind] at h
        obtain ⟨hist, hreach⟩ := hr.1 st hst
        cases hs : sfwStep P v r.step st b with
        | error e => rw [hs] at h; simp at h
        | ok o =>
          rw [hs] at h
          cases o with
          | none => exact ih _ _ h ⟨fun st hs => by simp at hs, hr.2⟩
          | some s =>
            simp only at h
            have hnew : ∀ st', some s = some st' → ∃ hist, SfwReach P v hist st' := fun st' e => by
              rw [← Option.some.inj e]; exact ⟨_, hreach.step r.step hs⟩
            split at h
            next hlt =>
              simp only [Except.ok.injEq] at h
              rw [← h]
              exact ⟨hnew, fun _ => ⟨r.step, hist, st, s, b, hreach, hs, hlt⟩⟩
            · exact ih _ _ h ⟨hnew, hr.2⟩
  have loop : ∀ (rem it : ℕ) (r r' : SfwRun K n p V), sfwLoop P v rem it r = .ok r' → Q r → Q r' := by
    intro rem
    induction rem with
    | zero =>
      intro it r r' h hr
      simp only [sfwLoop, Except.ok.injEq] at h
      rw [← h]; exact hr
    | succ rem ih =>
      intro it r r' h hr
      unfold sfwLoop at h
      simp only [bind, Except.bind] at h
      cases hi : sfwInner P v (sfwBatches n P.batchSize (P.order it)) r with
      | error e => rw [hi] at h; simp at h
      | ok r1 =>
        rw [hi] at h
        exact ih (it + 1) r1 r' h (inner _ _ _ hi hr)
  have := loop _ _ _ _ hl ⟨fun st hs => by simp only [Option.some.injEq] at hs; rw [← hs]; exact ⟨[], SfwReach.init⟩, fun hf => by simp at hf⟩
  obtain ⟨t, hist, st, st', batch, h1⟩ := this.2 hsucc
  exact ⟨v, t, hist, st, st', batch, h1⟩

end General

/-! ### Concrete runs -/

/-- The exact oracle of the interval `[0, 1]`. -/
def unitLmo (u x : Fin 1 → ℚ) (_ : Option (ActiveSet Unit ℚ)) : LmoOut (Fin 1 → ℚ) Unit ℚ :=
  { dir := fun c => (if 0 ≤ u 0 then 1 else 0) - x c, fwRep := none, awayRep := none, maxStep := 1 }

/-- The interval `[0, 1]`. -/
def unitInterval1 : Set (Fin 1 → ℚ) := {x | 0 ≤ x 0 ∧ x 0 ≤ 1}

theorem unitInterval1_convex : ∀ x ∈ unitInterval1, ∀ y ∈ unitInterval1, ∀ t : ℚ, 0 ≤ t → t ≤ 1 → (fun c => (1 - t) * x c + t * y c) ∈ unitInterval1 := by
  rintro x ⟨hx0, hx1⟩ y ⟨hy0, hy1⟩ t h0 h1
  constructor
  · show 0 ≤ (1 - t) * x 0 + t * y 0
    have := mul_nonneg (sub_nonneg.mpr h1) hx0
    have := mul_nonneg h0 hy0
    linarith
  · show (1 - t) * x 0 + t * y 0 ≤ 1
    nlinarith

theorem unitLmo_exact : IsExactLmo unitInterval1 unitLmo := by
  intro u x
  refine ⟨by norm_num [unitLmo], le_refl _, fun _ => if 0 ≤ u 0 then 1 else 0, ?_, rfl, ?_⟩
  · unfold unitInterval1; constructor <;> (show _ ≤ _; simp only; split <;> norm_num)
  · rintro z ⟨hz0, hz1⟩
    simp only [Finset.univ_unique, Fin.default_eq_zero, Finset.sum_singleton]
    split
    next h => nlinarith
    next h => push Not at h; nlinarith

theorem unitLmo_vanilla : IsVanillaLmo unitInterval1 unitLmo := by
  intro u x
  obtain ⟨-, -, s, hs, hd, -⟩ := unitLmo_exact u x
  exact ⟨s, hs, hd⟩

/-- Runs on one sample with `f' = x - 1/2` on the interval `[0, 1]`, from `x0 = 1`. -/
def exSfw (step : SfwStepArg) (variant : String) (maxIter : ℕ) (tol : ℚ) : SfwArgs ℚ 1 1 Unit where
  deriv := fun x b => x - b
  a := fun _ _ => 1
  b := fun _ => 1 / 2
  x0 := fun _ => 1
  lmo := unitLmo
  x0Rep := ()
  batchSize := 1
  stepSize := step
  lipschitz := some 1
  maxIter := maxIter
  tol := tol
  variant := variant
  lmoVariant := "vanilla"
  order := fun _ => [0]
  cbrtSq := id

/-- Comparison of a result with expected values. -/
def sfwCheck {n p : ℕ} {V : Type} (r : Except PyErr (SfwResult ℚ n p V)) (x : Option (Fin p → ℚ)) (success : Bool) : Bool :=
  match r with
  | .ok r => decide (r.x = x) && (r.success == success)
  | .error _ => false

theorem of_sfwCheck {n p : ℕ} {V : Type} {r : Except PyErr (SfwResult ℚ n p V)} {x : Option (Fin p → ℚ)} {s : Bool} (h : sfwCheck r x s = true) :
    ∃ q, r = .ok q ∧ q.x = x ∧ q.success = s := by
  unfold sfwCheck at h
  split at h
  next q =>
    simp only [Bool.and_eq_true, decide_eq_true_eq, beq_iff_eq] at h
    exact ⟨q, rfl, h.1, h.2⟩
  · simp at h

/-- C65 on three epochs: `1 → 0 → 2/3 → 1/3`; the hypotheses of `C65_feasible`, `C65_returns` and `C67_minimize` hold. -/
example : sfwCheck (minimizeSfw (exSfw .sublinear "SAG" 3 0)) (some fun _ => 1 / 3) false = true ∧ IsVanillaLmo unitInterval1 (exSfw .sublinear "SAG" 3 0).lmo ∧
    (exSfw .sublinear "SAG" 3 0).x0 ∈ unitInterval1 ∧ ∀ it, ∀ b ∈ sfwBatches 1 1 ((exSfw .sublinear "SAG" 3 0).order it), b.Nodup :=
  ⟨by decide +kernel, unitLmo_vanilla, by norm_num [unitInterval1, exSfw], fun it b hb => by
    have : b ∈ sfwBatches 1 1 [(0 : Fin 1)] := hb
    simp [sfwBatches] at this
    rw [this]; simp⟩

/-- C66 on two epochs: `1 → 1/2`, after which the direction is `1/2` with step 0. -/
example : sfwCheck (minimizeSfw (exSfw .DR "SAG" 2 0)) (some fun _ => 1 / 2) false = true ∧ IsExactLmo unitInterval1 (exSfw .DR "SAG" 2 0).lmo ∧
    0 < (exSfw .DR "SAG" 2 0).lipschitz.getD 0 :=
  ⟨by decide +kernel, unitLmo_exact, by norm_num [exSfw]⟩

/-- C68: `success` holds after epoch 0 with tolerance 2, and still epoch 1 is run and changes `x`. -/
theorem C68_refuted : ∃ r₁ r₂, minimizeSfw (exSfw .sublinear "SAG" 1 2) = .ok r₁ ∧ minimizeSfw (exSfw .sublinear "SAG" 2 2) = .ok r₂ ∧
    r₁.success = true ∧ r₁.x = some (fun _ => 0) ∧ r₂.x = some (fun _ => 1) ∧ r₂.nit = 1 := by
  obtain ⟨r₁, h1, h2, h3⟩ := of_sfwCheck (show sfwCheck (minimizeSfw (exSfw .sublinear "SAG" 1 2)) (some fun _ => 0) true = true by decide +kernel)
  obtain ⟨r₂, k1, k2, k3⟩ := of_sfwCheck (show sfwCheck (minimizeSfw (exSfw .sublinear "SAG" 2 2)) (some fun _ => 1) true = true by decide +kernel)
  exact ⟨r₁, r₂, h1, k1, h3, h2, k2, C68_never_stops _ r₂ k1⟩

/-- A callable step size in the same run. -/
example : minimizeSfw (exSfw .other "SAG" 3 0) = .error .unboundLocalError :=
  C68_callable_raises _ rfl .SAG (by simp [exSfw, parseVariant]) (Or.inl rfl) (by norm_num [exSfw]) (by norm_num [exSfw]) (by simp [exSfw])

/-- C66 fails: starting at the vertex that the oracle returns, the direction is 0 and the result is `nan`. -/
theorem C66_refuted_nan : ∃ (P : SfwArgs ℚ 1 1 Unit) (r : SfwResult ℚ 1 1 Unit), IsExactLmo unitInterval1 P.lmo ∧ P.stepSize = .DR ∧
    P.lipschitz = some 1 ∧ P.variant = "SAG" ∧ P.lmoVariant = "vanilla" ∧ P.x0 ∈ unitInterval1 ∧ minimizeSfw P = .ok r ∧ r.x = none := by
  let P : SfwArgs ℚ 1 1 Unit := { exSfw .DR "SAG" 1 0 with b := fun _ => 2 }
  obtain ⟨r, h1, h2, -⟩ := of_sfwCheck (show sfwCheck (minimizeSfw P) none false = true by decide +kernel)
  exact ⟨P, r, unitLmo_exact, rfl, rfl, rfl, rfl, by norm_num [unitInterval1, P, exSfw], h1, h2⟩

/-- Two linear losses with slopes 10 and -8, drawn in this order. -/
def exSfwSaga : SfwArgs ℚ 2 1 Unit where
  deriv := fun _ b => b
  a := fun _ _ => 1
  b := ![10, -8]
  x0 := fun _ => 1
  lmo := unitLmo
  x0Rep := ()
  batchSize := 1
  stepSize := .DR
  lipschitz := some (1 / 10)
  maxIter := 1
  tol := 0
  variant := "SAGA"
  lmoVariant := "vanilla"
  order := fun _ => [0, 1]
  cbrtSq := id

/-- C66 fails for SAGA: the certificate is computed with `grad_agg` but the direction with `grad_est`, so the step may be negative: the run leaves
`[0, 1]` and returns `-10`. -/
theorem C66_refuted_saga : ∃ (P : SfwArgs ℚ 2 1 Unit) (r : SfwResult ℚ 2 1 Unit), IsExactLmo unitInterval1 P.lmo ∧ P.stepSize = .DR ∧
    P.lipschitz = some (1 / 10) ∧ P.variant = "SAGA" ∧ P.lmoVariant = "vanilla" ∧ P.x0 ∈ unitInterval1 ∧ minimizeSfw P = .ok r ∧
    r.x = some (fun _ => -10) := by
  obtain ⟨r, h1, h2, -⟩ := of_sfwCheck (show sfwCheck (minimizeSfw exSfwSaga) (some fun _ => -10) false = true by decide +kernel)
  exact ⟨exSfwSaga, r, unitLmo_exact, rfl, rfl, rfl, rfl, by norm_num [unitInterval1, exSfwSaga], h1, h2⟩

/-! ### C81 -/

/-- `L1Ball(1).lmo_pairwise`; it does not raise in dimension 1 with a non-empty active set. -/
def l1PairLmo (u x : Fin 1 → ℚ) (act : Option (ActiveSet (L1Rep ℚ 1) ℚ)) : LmoOut (Fin 1 → ℚ) (L1Rep ℚ 1) ℚ :=
  match L1Ball.lmoPairwise 1 u x (act.getD []) with
  | .ok o => o
  | .error _ => { dir := 0, fwRep := none, awayRep := none, maxStep := 0 }

/-- The default step size with the pairwise oracle of the interval `[-1, 1]`. -/
def exPair : SfwArgs ℚ 1 1 (L1Rep ℚ 1) where
  deriv := fun x b => x - b
  a := fun _ _ => 1
  b := fun _ => 1 / 2
  x0 := fun _ => 1
  lmo := l1PairLmo
  x0Rep := (1, 0)
  batchSize := 1
  stepSize := .sublinear
  lipschitz := none
  maxIter := 3
  tol := 0
  variant := "SAG"
  lmoVariant := "pairwise"
  order := fun _ => [0]
  cbrtSq := id

/-- C81 fails: the step sizes of `'sublinear'` ignore `max_step_size`, and the third step raises ValueError in `update_active_set`. -/
theorem C81_refuted : minimizeSfw exPair = .error .valueError := by
  have h : (match minimizeSfw exPair with | .error .valueError => true | _ => false) = true := by decide +kernel
  split at h
  next h' => exact h'
  · simp at h

section Pairwise
variable {n p : ℕ} {V : Type} [DecidableEq V]

/-- A pairwise oracle over the vertices `φ`: `away` is an active vertex, `fw` is at least as good as it, and the largest step is the weight of `away`. -/
def IsPairwiseLmo (φ : V → EuclideanSpace ℝ (Fin p)) (W : V → Prop)
    (lmo : (Fin p → ℝ) → (Fin p → ℝ) → Option (ActiveSet V ℝ) → LmoOut (Fin p → ℝ) V ℝ) : Prop :=
  ∀ u x act, act ≠ [] → (∀ q ∈ act, W q.1) → ∃ fw away, (lmo u x (some act)).fwRep = some fw ∧ (lmo u x (some act)).awayRep = some away ∧
    (away, (lmo u x (some act)).maxStep) ∈ act ∧ W fw ∧ (lmo u x (some act)).dir = (fun c => φ fw c - φ away c) ∧
    0 ≤ ∑ c, u c * (φ fw c - φ away c)

/-- C81 for the SAG variant with `step_size='DR'`: the call does not raise, and unless `x` became `nan` the active set is a convex decomposition of
the result over admissible vertices.  Missing: the default `step_size='sublinear'`, for which it fails (`C81_refuted`), and the variants other
than SAG. -/
theorem C81_pairwise_DR_partial (P : SfwArgs ℝ n p V) (φ : V → EuclideanSpace ℝ (Fin p)) (W : V → Prop) (hlmo : IsPairwiseLmo φ W P.lmo)
    (hs : P.stepSize = .DR) {L : ℝ} (hL : P.lipschitz = some L) (hLp : 0 < L) (hv : P.variant = "SAG") (hpw : P.lmoVariant = "pairwise")
    (hx : WithLp.toLp 2 P.x0 = φ P.x0Rep) (hW : W P.x0Rep) (hm : 0 < P.maxIter) (hb : 0 < P.batchSize) :
    ∃ r, minimizeSfw P = .ok r ∧ r.x = r.final.st.map SfwState.x ∧
      ∀ st, r.final.st = some st → ∃ act, st.active = some act ∧ Decomp φ W act (WithLp.toLp 2 st.x) := by
  let I : Option (SfwState ℝ n p V) → Prop := fun o => ∀ st, o = some st → ∃ act, st.active = some act ∧ Decomp φ W act (WithLp.toLp 2 st.x)
  have hstep : ∀ t st batch, I (some st) → ∃ o, sfwStep P .SAG t st batch = .ok o ∧ I o := by
    intro t st batch hI
    obtain ⟨act, hact, hD⟩ := hI st rfl
    obtain ⟨d, hd⟩ : ∃ d, sfwDual P .SAG none st batch = .ok d := ⟨_, rfl⟩
    obtain ⟨fw, away, h1, h2, h3, h4, h5, h6⟩ := hlmo (fun c => -sfwEstimate P .SAG st batch d.1 c) st.x act hD.ne_nil hD.valid
    unfold sfwStep
    rw [if_neg (by rw [hs]; simp), if_pos hs, hact, hL]
    simp only [Option.bind_none, bind, Except.bind, hd, Option.getD_some]
    set o := P.lmo (fun c => -sfwEstimate P .SAG st batch d.1 c) st.x (some act) with ho
    have hcert : 0 ≤ ∑ c, -(st.gradAgg c + sfwDelta P batch st.dual d.1 c) * o.dir c := by
      rw [h5]; exact h6
    cases hg : stepSizeDR (∑ c, -(st.gradAgg c + sfwDelta P batch st.dual d.1 c) * o.dir c) L o.maxStep o.dir with
    | none => exact ⟨none, rfl, fun st h => by simp at h⟩
    | some g =>
      have hg01 : 0 ≤ g ∧ g ≤ o.maxStep := by
        unfold stepSizeDR at hg
        split at hg
        · simp at hg
        simp only [Option.some.injEq] at hg
        subst hg
        exact ⟨le_min (div_nonneg hcert (mul_nonneg (Finset.sum_nonneg fun c _ => sq_nonneg _) hLp.le)) (hD.nonneg _ h3), min_le_right _ _⟩
      obtain ⟨act', hu, hD'⟩ := hD.step h3 h4 hg01.1 hg01.2
      have hup : fwUpdateActive (some act) o g = .ok (some act') := by
        unfold fwUpdateActive
        rw [h1, h2]
        simp only [hu]; rfl
      simp only [hup, pure, Except.pure]
      refine ⟨_, rfl, fun st' hst' => ?_⟩
      rw [← Option.some.inj hst']
      refine ⟨act', rfl, ?_⟩
      have : WithLp.toLp 2 (fun c => st.x c + g * o.dir c) = WithLp.toLp 2 st.x + g • (φ fw - φ away) := by
        ext c
        simp [h5]
      show Decomp φ W act' (WithLp.toLp 2 (fun c => st.x c + g * o.dir c))
      rw [this]; exact hD'
  have inner : ∀ (bs : List (List (Fin n))) (r : SfwRun ℝ n p V), I r.st → ∃ r', sfwInner P .SAG bs r = .ok r' ∧ I r'.st := by
    intro bs
    induction bs with
    | nil => intro r hr; exact ⟨r, rfl, hr⟩
    | cons b bs ih =>
      intro r hr
      unfold sfwInner
      cases hst : r.st with
      | none => exact ih _ (fun st h => by simp at h)
      | some st =>
        rw [hst] at hr
        obtain ⟨o, h1, h2⟩ := hstep r.step st b hr
        simp only [bind, Except.bind, h1]
        cases o with
        | none => exact ih _ (fun st h => by simp at h)
        | some s =>
          simp only
          split
          · exact ⟨_, rfl, h2⟩
          · exact ih _ h2
  have loop : ∀ (rem it : ℕ) (r : SfwRun ℝ n p V), I r.st → ∃ r', sfwLoop P .SAG rem it r = .ok r' ∧ I r'.st := by
    intro rem
    induction rem with
    | zero => intro it r hr; exact ⟨r, rfl, hr⟩
    | succ rem ih =>
      intro it r hr
      obtain ⟨r1, h1, h2⟩ := inner (sfwBatches n P.batchSize (P.order it)) r hr
      unfold sfwLoop
      simp only [bind, Except.bind, h1]
      exact ih (it + 1) r1 h2
  have hinit : I (some (sfwInit P)) := by
    intro st hst
    rw [← Option.some.inj hst]
    refine ⟨[(P.x0Rep, 1)], by unfold sfwInit; rw [if_pos hpw], by simp, by simp, by simp, ?_, by simpa using hW⟩
    show WithLp.toLp 2 P.x0 = _
    simp [hx]
  obtain ⟨k, hk⟩ : ∃ k, P.maxIter = k + 1 := ⟨P.maxIter - 1, by omega⟩
  obtain ⟨r', hr', hI'⟩ := loop (k + 1) 0 { st := some (sfwInit P), step := 0, success := false } hinit
  refine ⟨{ x := r'.st.map SfwState.x, success := r'.success, nit := k, final := r' }, ?_, rfl, hI'⟩
  unfold minimizeSfw
  rw [hv, show parseVariant "SAG" = some .SAG by simp [parseVariant]]
  simp only
  rw [if_neg (not_not.mpr (Or.inr hpw)), if_neg (by rw [hL]; simp), hk]
  simp only
  rw [if_neg (by omega), hr']
  rfl

/-- `L1Ball(alpha).lmo_pairwise` as a function (it does not raise on a non-empty active set, `C06_l1_lmo_pairwise_correct`). -/
noncomputable def l1PairOracle (alpha : ℝ) (u x : Fin p → ℝ) (act : Option (ActiveSet (L1Rep ℝ p) ℝ)) : LmoOut (Fin p → ℝ) (L1Rep ℝ p) ℝ :=
  match L1Ball.lmoPairwise alpha u x (act.getD []) with
  | .ok o => o
  | .error _ => { dir := 0, fwRep := none, awayRep := none, maxStep := 0 }

theorem l1PairOracle_spec (hp : 0 < p) {alpha : ℝ} (ha : 0 ≤ alpha) :
    IsPairwiseLmo (p := p) (l1Vertex2 alpha) (fun r => l1Vertex alpha r ∈ l1Ball alpha) (l1PairOracle alpha) := by
  intro u x act hact hval
  obtain ⟨o, fw, away, h1, h2, h3, h4, h5, h6, h7⟩ := C06_l1_lmo_pairwise_correct hp alpha ha u x act hact
  have e : l1PairOracle alpha u x (some act) = o := by
    unfold l1PairOracle
    rw [Option.getD_some, h1]
  rw [e]
  refine ⟨fw, away, h2, h3, h4, h6.1, by rw [h5]; rfl, ?_⟩
  have := h6.2 _ (hval _ h4)
  have e2 : ∑ c, u c * (l1Vertex2 alpha fw c - l1Vertex2 alpha away c) = dot u (l1Vertex alpha fw) - dot u (l1Vertex alpha away) := by
    unfold dot
    rw [← Finset.sum_sub_distrib]
    exact Finset.sum_congr rfl fun c _ => by rw [← mul_sub]; rfl
  rw [e2]; linarith

/-- C81 on the l1 ball, `step_size='DR'`, SAG: the call does not raise and a result that is not `nan` is in the ball. -/
theorem C81_l1_DR_partial (P : SfwArgs ℝ n p (L1Rep ℝ p)) (hp : 0 < p) {alpha : ℝ} (ha : 0 ≤ alpha) (hlmo : P.lmo = l1PairOracle alpha)
    (hs : P.stepSize = .DR) {L : ℝ} (hL : P.lipschitz = some L) (hLp : 0 < L) (hv : P.variant = "SAG") (hpw : P.lmoVariant = "pairwise")
    (hx : P.x0 = l1Vertex alpha P.x0Rep) (hW : P.x0 ∈ l1Ball alpha) (hm : 0 < P.maxIter) (hb : 0 < P.batchSize) :
    ∃ r, minimizeSfw P = .ok r ∧ ∀ x, r.x = some x → x ∈ l1Ball alpha := by
  obtain ⟨r, h1, h2, h3⟩ := C81_pairwise_DR_partial P (l1Vertex2 alpha) (fun r => l1Vertex alpha r ∈ l1Ball alpha)
    (by rw [hlmo]; exact l1PairOracle_spec hp ha) hs hL hLp hv hpw (by rw [hx]; rfl) (by rw [← hx]; exact hW) hm hb
  refine ⟨r, h1, fun x hxr => ?_⟩
  rw [h2] at hxr
  obtain ⟨st, hst, rfl⟩ := Option.map_eq_some_iff.mp hxr
  obtain ⟨act, -, hD⟩ := h3 st hst
  exact hD.mem_l1Ball

/-- The hypotheses of `C81_l1_DR_partial` for the problem of `C81_refuted`, with `step_size='DR'`. -/
example : ∃ P : SfwArgs ℝ 1 1 (L1Rep ℝ 1), P.lmo = l1PairOracle 1 ∧ P.stepSize = .DR ∧ P.lipschitz = some 1 ∧ P.variant = "SAG" ∧
    P.lmoVariant = "pairwise" ∧ P.x0 = l1Vertex 1 P.x0Rep ∧ P.x0 ∈ l1Ball 1 ∧ P.maxIter = 3 ∧ P.batchSize = 1 :=
  ⟨{ deriv := fun x b => x - b, a := fun _ _ => 1, b := fun _ => 1 / 2, x0 := l1Vertex 1 (1, 0), lmo := l1PairOracle 1, x0Rep := (1, 0), batchSize := 1,
     stepSize := .DR, lipschitz := some 1, maxIter := 3, tol := 0, variant := "SAG", lmoVariant := "pairwise", order := fun _ => [0], cbrtSq := id },
   rfl, rfl, rfl, rfl, rfl, rfl, by simp [l1Ball, l1Vertex, norm1], rfl, rfl⟩

end Pairwise

end Copt
