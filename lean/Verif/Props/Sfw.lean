import Verif.Model.SFW
import Verif.Spec.FiniteSum
import Mathlib.Analysis.SpecialFunctions.Pow.Real

/-! # Properties of `minimize_sfw` -/

set_option linter.unusedSectionVars false

namespace Copt

open Spec

/-! ### C64 -/

/-- **C64.** For every iteration counter and all `1 ≤ batch_size ≤ n_samples` the step sizes lie in `(0, 1]` and the LF aggregation weight in `(0, 1)`. -/
theorem C64_step_sizes {K : Type} [Field K] [LinearOrder K] [IsStrictOrderedRing K] (cbrtSq : K → K) (t n bs : ℕ) (hb : 1 ≤ bs) (hn : bs ≤ n) :
    (∀ v, 0 < (stepSizeSfw cbrtSq v t n bs).1 ∧ (stepSizeSfw cbrtSq v t n bs).1 ≤ 1) ∧
      ∃ g, (stepSizeSfw cbrtSq .LF t n bs).2 = some g ∧ 0 < g ∧ g < 1 := by
  have ht : (0 : K) ≤ t := Nat.cast_nonneg t
  have hb' : (0 : K) < bs := by exact_mod_cast hb
  have hn' : (0 : K) < n := by exact_mod_cast (by omega : 0 < n)
  have hm : (0 : K) < (n : K) / bs := div_pos hn' hb'
  refine ⟨fun v => ?_, _, rfl, ?_, ?_⟩
  · cases v
    · exact ⟨by show (0 : K) < 2 / ((t : K) + 2); positivity, (div_le_one (by positivity)).mpr (by linarith)⟩
    · exact ⟨by show (0 : K) < 2 / ((t : K) + 2); positivity, (div_le_one (by positivity)).mpr (by linarith)⟩
    · exact ⟨by show (0 : K) < 2 / ((t : K) + 8); positivity, (div_le_one (by positivity)).mpr (by linarith)⟩
    · simp only [stepSizeSfw]
      set m := (n : K) / bs
      refine ⟨by positivity, (div_le_one (by positivity)).mpr ?_⟩
      have ht2 : (t : K) ≤ t * t := by exact_mod_cast Nat.le_mul_self t
      nlinarith [mul_nonneg hm.le ht]
  · set m := (n : K) / bs
    positivity
  · rw [div_lt_one (by positivity)]
    linarith

/-- C64 for the MHK aggregation weight `step_size_x ** (2/3)`. -/
theorem C64_mhk_aggregation (t n bs : ℕ) : ∃ g, (stepSizeSfw (fun x : ℝ => x ^ ((2 : ℝ) / 3)) .MHK t n bs).2 = some g ∧ 0 < g ∧ g < 1 := by
  have ht : (0 : ℝ) ≤ t := Nat.cast_nonneg t
  refine ⟨_, rfl, Real.rpow_pos_of_pos (by positivity) _, Real.rpow_lt_one (by positivity) ?_ (by norm_num)⟩
  rw [div_lt_one (by positivity)]
  linarith

/-- The values for 10 samples in batches of 3 at step 5. -/
example : stepSizeSfw (id : ℚ → ℚ) .LF 5 10 3 = (35 / 165, some (20 / 38)) := by
  norm_num [stepSizeSfw]

section Run
variable {K : Type} [Field K] [LinearOrder K] [IsStrictOrderedRing K] {n p : ℕ} {V : Type} [DecidableEq V]

/-- What a successful step does. -/
theorem sfwStep_ok {P : SfwArgs K n p V} {v : SfwVariant} {t : ℕ} {st st' : SfwState K n p V} {batch : List (Fin n)}
    (h : sfwStep P v t st batch = .ok (some st')) : P.stepSize ≠ .other ∧ ∃ d g act,
      sfwDual P v (if P.stepSize = .DR then none else (stepSizeSfw P.cbrtSq v t n P.batchSize).2) st batch = .ok d ∧
      (P.stepSize = .sublinear → g = (stepSizeSfw P.cbrtSq v t n P.batchSize).1) ∧
      (P.stepSize = .DR → stepSizeDR (∑ c, -(st.gradAgg c + sfwDelta P batch st.dual d.1 c) *
        (P.lmo (fun c => -sfwEstimate P v st batch d.1 c) st.x st.active).dir c) (P.lipschitz.getD 0)
        (P.lmo (fun c => -sfwEstimate P v st batch d.1 c) st.x st.active).maxStep (P.lmo (fun c => -sfwEstimate P v st batch d.1 c) st.x st.active).dir = some g) ∧
      fwUpdateActive st.active (P.lmo (fun c => -sfwEstimate P v st batch d.1 c) st.x st.active) g = .ok act ∧
      st' = { x := fun c => st.x c + g * (P.lmo (fun c => -sfwEstimate P v st batch d.1 c) st.x st.active).dir c, dual := d.1,
              gradAgg := fun c => st.gradAgg c + sfwDelta P batch st.dual d.1 c, sigma := d.2, active := act } := by
  unfold sfwStep at h
  by_cases ho : P.stepSize = .other
  · rw [if_pos ho] at h; simp at h
  rw [if_neg ho] at h
  refine ⟨ho, ?_⟩
  by_cases hd : P.stepSize = .DR
  · simp only [hd, if_true, Option.bind_none, bind, Except.bind] at h
    cases hdual : sfwDual P v none st batch with
    | error e => rw [hdual] at h; simp at h
    | ok d =>
    rw [hdual] at h
    simp only at h
    split at h
    · simp [pure, Except.pure] at h
    next g hg =>
    split at h
    · simp at h
    next act hact =>
    simp only [pure, Except.pure, Except.ok.injEq, Option.some.injEq] at h
    refine ⟨d, g, act, by rw [if_pos hd]; exact hdual, fun hs => by rw [hd] at hs; simp at hs, fun _ => hg, hact, h.symm⟩
  · have hs : P.stepSize = .sublinear := by
      cases h' : P.stepSize with
      | sublinear => rfl
      | DR => exact absurd h' hd
      | other => exact absurd h' ho
    rw [if_neg hd] at h
    simp only [Option.bind_some, bind, Except.bind] at h
    cases hdual : sfwDual P v (stepSizeSfw P.cbrtSq v t n P.batchSize).2 st batch with
    | error e => rw [hdual] at h; simp at h
    | ok d =>
    rw [hdual] at h
    simp only at h
    split at h
    · simp at h
    next act hact =>
    simp only [pure, Except.pure, Except.ok.injEq, Option.some.injEq] at h
    refine ⟨d, _, act, by rw [if_neg hd]; exact hdual, fun _ => rfl, fun hs' => absurd hs' hd, hact, h.symm⟩

/-- The states a run goes through: `hist` lists the iterates and batches of the steps made so far, `t` is any counter. -/
inductive SfwReach (P : SfwArgs K n p V) (v : SfwVariant) : List ((Fin p → K) × List (Fin n)) → SfwState K n p V → Prop
  | init : SfwReach P v [] (sfwInit P)
  | step {hist st st' batch} (t : ℕ) : SfwReach P v hist st → sfwStep P v t st batch = .ok (some st') → SfwReach P v (hist ++ [(st.x, batch)]) st'

/-- A run ends in a state reached by steps on batches of its epochs, or `x` became `nan`. -/
theorem sfwInner_reach {P : SfwArgs K n p V} {v : SfwVariant} {Q : List (Fin n) → Prop} : ∀ (bs : List (List (Fin n))), (∀ b ∈ bs, Q b) →
    ∀ (r r' : SfwRun K n p V), sfwInner P v bs r = .ok r' →
    (∀ st, r.st = some st → ∃ hist, SfwReach P v hist st ∧ ∀ e ∈ hist, Q e.2) →
    ∀ st, r'.st = some st → ∃ hist, SfwReach P v hist st ∧ ∀ e ∈ hist, Q e.2 := by
  intro bs
  induction bs with
  | nil =>
    intro _ r r' h hr
    simp only [sfwInner, Except.ok.injEq] at h
    rw [← h]; exact hr
  | cons b bs ih =>
    intro hQ r r' h hr
    have hQ' : ∀ b ∈ bs, Q b := fun b' hb' => hQ b' (by simp [hb'])
    unfold sfwInner at h
    cases hst : r.st with
    | none =>
      rw [hst] at h
      exact ih hQ' _ _ h (fun st hs => by simp at hs)
    | some st =>
      rw [hst] at h
      simp only [bind, Except.bind] at h
      cases hs : sfwStep P v r.step st b with
      | error e => rw [hs] at h; simp at h
      | ok o =>
        rw [hs] at h
        cases o with
        | none => exact ih hQ' _ _ h (fun st hs => by simp at hs)
        | some s =>
          simp only at h
          obtain ⟨hist, h1, h2⟩ := hr st hst
          have hnew : ∃ hist, SfwReach P v hist s ∧ ∀ e ∈ hist, Q e.2 := by
            refine ⟨_, h1.step r.step hs, fun e he => ?_⟩
            rcases List.mem_append.mp he with he | he
            · exact h2 e he
            · rw [List.mem_singleton.mp he]; exact hQ b (by simp)
          split at h
          · simp only [Except.ok.injEq] at h
            rw [← h]
            intro st' hst'
            simp only [Option.some.injEq] at hst'
            rw [← hst']; exact hnew
          · exact ih hQ' _ _ h (fun st' hst' => by
              simp only [Option.some.injEq] at hst'
              rw [← hst']; exact hnew)

theorem sfwLoop_reach {P : SfwArgs K n p V} {v : SfwVariant} {Q : List (Fin n) → Prop} (hQ : ∀ it, ∀ b ∈ sfwBatches n P.batchSize (P.order it), Q b) :
    ∀ (rem it : ℕ) (r r' : SfwRun K n p V), sfwLoop P v rem it r = .ok r' →
    (∀ st, r.st = some st → ∃ hist, SfwReach P v hist st ∧ ∀ e ∈ hist, Q e.2) →
    ∀ st, r'.st = some st → ∃ hist, SfwReach P v hist st ∧ ∀ e ∈ hist, Q e.2 := by
  intro rem
  induction rem with
  | zero =>
    intro it r r' h hr
    simp only [sfwLoop, Except.ok.injEq] at h
    rw [← h]; exact hr
  | succ rem ih =>
    intro it r r' h hr
    unfold sfwLoop at h
    simp only [bind, Except.bind] at h
    cases hi : sfwInner P v (sfwBatches n P.batchSize (P.order it)) r with
    | error e => rw [hi] at h; simp at h
    | ok r1 =>
      rw [hi] at h
      exact ih (it + 1) r1 r' h (sfwInner_reach _ (hQ it) r r1 hi hr)

/-- The parts of a finished call. -/
theorem minimizeSfw_ok {P : SfwArgs K n p V} {r : SfwResult K n p V} (h : minimizeSfw P = .ok r) : ∃ v, parseVariant P.variant = some v ∧
    (P.lmoVariant = "vanilla" ∨ P.lmoVariant = "pairwise") ∧ ¬(P.stepSize = .DR ∧ P.lipschitz = none) ∧ 0 < P.maxIter ∧ 0 < P.batchSize ∧
    sfwLoop P v P.maxIter 0 { st := some (sfwInit P), step := 0, success := false } = .ok r.final ∧ r.x = r.final.st.map SfwState.x ∧
    r.success = r.final.success ∧ r.nit = P.maxIter - 1 := by
  unfold minimizeSfw at h
  cases hv : parseVariant P.variant with
  | none => rw [hv] at h; simp at h
  | some v =>
  rw [hv] at h
  simp only at h
  split at h
  · simp at h
  next hl =>
  split at h
  · simp at h
  next hd =>
  cases hm : P.maxIter with
  | zero => rw [hm] at h; simp at h
  | succ k =>
  rw [hm] at h
  simp only at h
  split at h
  · simp at h
  next hb =>
  simp only [bind, Except.bind] at h
  cases hr : sfwLoop P v (k + 1) 0 { st := some (sfwInit P), step := 0, success := false } with
  | error e => rw [hr] at h; simp at h
  | ok r' =>
  rw [hr] at h
  simp only [pure, Except.pure, Except.ok.injEq] at h
  subst h
  exact ⟨v, rfl, not_not.mp hl, hd, by omega, Nat.pos_of_ne_zero hb, hr, rfl, rfl, rfl⟩

/-! ### C65 -/

/-- An oracle for the set `C`: it returns `s - x` with `s` in `C`. -/
def IsVanillaLmo (C : Set (Fin p → K)) (lmo : (Fin p → K) → (Fin p → K) → Option (ActiveSet V K) → LmoOut (Fin p → K) V K) : Prop :=
  ∀ u x, ∃ s ∈ C, (lmo u x none).dir = fun c => s c - x c

theorem step_in (C : Set (Fin p → K)) (hC : ∀ x ∈ C, ∀ y ∈ C, ∀ t : K, 0 ≤ t → t ≤ 1 → (fun c => (1 - t) * x c + t * y c) ∈ C) {x s : Fin p → K} (hx : x ∈ C)
    (hs : s ∈ C) {t : K} (h0 : 0 ≤ t) (h1 : t ≤ 1) : (fun c => x c + t * (s c - x c)) ∈ C := by
  have := hC x hx s hs t h0 h1
  convert this using 2
  ring

/-- C65, one step: from any state with `x` in the set, with any data, counter and batch drawn, the next iterate is in the set. -/
theorem C65_step (P : SfwArgs K n p V) (v : SfwVariant) (C : Set (Fin p → K))
    (hC : ∀ x ∈ C, ∀ y ∈ C, ∀ t : K, 0 ≤ t → t ≤ 1 → (fun c => (1 - t) * x c + t * y c) ∈ C) (hlmo : IsVanillaLmo C P.lmo) (hs : P.stepSize = .sublinear)
    (hb : 1 ≤ P.batchSize) (hn : P.batchSize ≤ n) (t : ℕ) (st : SfwState K n p V) (hact : st.active = none) (hx : st.x ∈ C) (batch : List (Fin n)) :
    ∃ st', sfwStep P v t st batch = .ok (some st') ∧ st'.x ∈ C ∧ st'.active = none := by
  have hd : ∃ d, sfwDual P v (stepSizeSfw P.cbrtSq v t n P.batchSize).2 st batch = .ok d := by
    cases v <;> exact ⟨_, rfl⟩
  obtain ⟨d, hd⟩ := hd
  have hg := (C64_step_sizes P.cbrtSq t n P.batchSize hb hn).1 v
  obtain ⟨s, hsC, hdir⟩ := hlmo (fun c => -sfwEstimate P v st batch d.1 c) st.x
  refine ⟨{ x := fun c => st.x c + (stepSizeSfw P.cbrtSq v t n P.batchSize).1 *
              (P.lmo (fun c => -sfwEstimate P v st batch d.1 c) st.x none).dir c, dual := d.1,
            gradAgg := fun c => st.gradAgg c + sfwDelta P batch st.dual d.1 c, sigma := d.2, active := none }, ?_, ?_, ?_⟩
  · unfold sfwStep
    rw [if_neg (by rw [hs]; simp), if_neg (by rw [hs]; simp)]
    simp only [Option.bind_some, bind, Except.bind, hd, hact, fwUpdateActive, pure, Except.pure]
  · show (fun c => st.x c + _ * (P.lmo (fun c => -sfwEstimate P v st batch d.1 c) st.x none).dir c) ∈ C
    rw [hdir]
    exact step_in C hC hx hsC hg.1.le hg.2
  · rfl

/-- **C65.** With the default step size and a vanilla oracle for a convex set containing `x0`, `minimize_sfw` returns a point of the set, for every
variant, data set, derivative and history of sampled indices. -/
theorem C65_feasible (P : SfwArgs K n p V) (C : Set (Fin p → K))
    (hC : ∀ x ∈ C, ∀ y ∈ C, ∀ t : K, 0 ≤ t → t ≤ 1 → (fun c => (1 - t) * x c + t * y c) ∈ C) (hlmo : IsVanillaLmo C P.lmo) (hs : P.stepSize = .sublinear)
    (hb : P.batchSize ≤ n) (hvan : P.lmoVariant = "vanilla") (hx : P.x0 ∈ C) (r : SfwResult K n p V) (h : minimizeSfw P = .ok r) :
    ∃ x, r.x = some x ∧ x ∈ C := by
  obtain ⟨v, -, -, -, -, hb0, hl, hrx, -, -⟩ := minimizeSfw_ok h
  have inner : ∀ (bs : List (List (Fin n))) (r r' : SfwRun K n p V), sfwInner P v bs r = .ok r' →
      (∃ st, r.st = some st ∧ st.x ∈ C ∧ st.active = none) → ∃ st, r'.st = some st ∧ st.x ∈ C ∧ st.active = none := by
    intro bs
    induction bs with
    | nil =>
      intro r r' h hr
      simp only [sfwInner, Except.ok.injEq] at h
      rw [← h]; exact hr
    | cons b bs ih =>
      rintro r r' h ⟨st, hst, hxC, hact⟩
      obtain ⟨s', h1, h2, h3⟩ := C65_step P v C hC hlmo hs hb0 hb r.step st hact hxC b
      unfold sfwInner at h
      rw [hst] at h
      simp only [bind, Except.bind, h1] at h
      split at h
      · simp only [Except.ok.injEq] at h
        rw [← h]; exact ⟨s', rfl, h2, h3⟩
      · exact ih _ _ h ⟨s', rfl, h2, h3⟩
  have loop : ∀ (rem it : ℕ) (r r' : SfwRun K n p V), sfwLoop P v rem it r = .ok r' →
      (∃ st, r.st = some st ∧ st.x ∈ C ∧ st.active = none) → ∃ st, r'.st = some st ∧ st.x ∈ C ∧ st.active = none := by
    intro rem
    induction rem with
    | zero =>
      intro it r r' h hr
      simp only [sfwLoop, Except.ok.injEq] at h
      rw [← h]; exact hr
    | succ rem ih =>
      intro it r r' h hr
      unfold sfwLoop at h
      simp only [bind, Except.bind] at h
      cases hi : sfwInner P v (sfwBatches n P.batchSize (P.order it)) r with
      | error e => rw [hi] at h; simp at h
      | ok r1 =>
        rw [hi] at h
        exact ih (it + 1) r1 r' h (inner _ _ _ hi hr)
  obtain ⟨st, hst, hxC, -⟩ := loop _ _ _ _ hl ⟨sfwInit P, rfl, hx, by
    unfold sfwInit
    rw [if_neg (by rw [hvan]; decide)]⟩
  exact ⟨st.x, by rw [hrx, hst]; rfl, hxC⟩

/-- C65: such calls do return, for valid variant names and positive `max_iter` and `batch_size`. -/
theorem C65_returns (P : SfwArgs K n p V) (C : Set (Fin p → K))
    (hC : ∀ x ∈ C, ∀ y ∈ C, ∀ t : K, 0 ≤ t → t ≤ 1 → (fun c => (1 - t) * x c + t * y c) ∈ C) (hlmo : IsVanillaLmo C P.lmo) (hs : P.stepSize = .sublinear)
    (hb0 : 0 < P.batchSize) (hb : P.batchSize ≤ n) (hvan : P.lmoVariant = "vanilla") (hx : P.x0 ∈ C) (hv : P.variant ∈ ["SAG", "SAGA", "MHK", "LF"])
    (hm : 0 < P.maxIter) : ∃ r, minimizeSfw P = .ok r := by
  obtain ⟨v, hv⟩ : ∃ v, parseVariant P.variant = some v := by
    unfold parseVariant
    simp only [List.mem_cons, List.not_mem_nil, or_false] at hv
    rcases hv with h | h | h | h <;> rw [h] <;> simp
  have inner : ∀ (bs : List (List (Fin n))) (r : SfwRun K n p V),
      (∃ st, r.st = some st ∧ st.x ∈ C ∧ st.active = none) → ∃ r', sfwInner P v bs r = .ok r' ∧ ∃ st, r'.st = some st ∧ st.x ∈ C ∧ st.active = none := by
    intro bs
    induction bs with
    | nil => intro r hr; exact ⟨r, rfl, hr⟩
    | cons b bs ih =>
      rintro r ⟨st, hst, hxC, hact⟩
      obtain ⟨s', h1, h2, h3⟩ := C65_step P v C hC hlmo hs hb0 hb r.step st hact hxC b
      unfold sfwInner
      rw [hst]
      simp only [bind, Except.bind, h1]
      split
      · exact ⟨_, rfl, s', rfl, h2, h3⟩
      · exact ih _ ⟨s', rfl, h2, h3⟩
  have loop : ∀ (rem it : ℕ) (r : SfwRun K n p V),
      (∃ st, r.st = some st ∧ st.x ∈ C ∧ st.active = none) → ∃ r', sfwLoop P v rem it r = .ok r' := by
    intro rem
    induction rem with
    | zero => intro it r _; exact ⟨r, rfl⟩
    | succ rem ih =>
      intro it r hr
      obtain ⟨r1, h1, h2⟩ := inner (sfwBatches n P.batchSize (P.order it)) r hr
      unfold sfwLoop
      simp only [bind, Except.bind, h1]
      exact ih (it + 1) r1 h2
  have hinit : (sfwInit P).active = none := by
    unfold sfwInit
    rw [if_neg (by rw [hvan]; decide)]
  unfold minimizeSfw
  rw [hv]
  simp only
  rw [if_neg (by rw [hvan]; simp), if_neg (by rw [hs]; simp)]
  obtain ⟨k, hk⟩ : ∃ k, P.maxIter = k + 1 := ⟨P.maxIter - 1, by omega⟩
  obtain ⟨r', hr'⟩ := loop (k + 1) 0 { st := some (sfwInit P), step := 0, success := false } ⟨sfwInit P, rfl, hx, hinit⟩
  rw [hk]
  simp only
  rw [if_neg (by omega), hr']
  exact ⟨_, rfl⟩

/-! ### C67 -/

theorem sfwDelta_eq (P : SfwArgs K n p V) {batch : List (Fin n)} (hnd : batch.Nodup) (dual dual' : Fin n → K) (hout : ∀ i ∉ batch, dual' i = dual i)
    (c : Fin p) : sfwDelta P batch dual dual' c = ∑ i, (dual' i - dual i) * P.a i c := by
  unfold sfwDelta
  rw [← List.sum_toFinset _ hnd]
  refine Finset.sum_subset (Finset.subset_univ _) fun i _ hi => ?_
  rw [hout i (fun h => hi (List.mem_toFinset.mpr h)), sub_self, zero_mul]

theorem sfwDual_out {P : SfwArgs K n p V} {v : SfwVariant} {g : Option K} {st : SfwState K n p V} {batch : List (Fin n)} {d : (Fin n → K) × (Fin n → K)}
    (h : sfwDual P v g st batch = .ok d) (i : Fin n) (hi : i ∉ batch) : d.1 i = st.dual i := by
  unfold sfwDual at h
  split at h
  all_goals first
    | (cases h; done)
    | (simp only [Except.ok.injEq] at h; rw [← h]; exact if_neg hi)

/-- **C67 (consistency).** After every history of steps on batches without repeated indices, for every variant and step size rule, the aggregated
gradient is `∑ dual_var[i] A_i`. -/
theorem C67_aggregate (P : SfwArgs K n p V) (v : SfwVariant) (hist : List ((Fin p → K) × List (Fin n))) (st : SfwState K n p V)
    (h : SfwReach P v hist st) (hnd : ∀ e ∈ hist, e.2.Nodup) (c : Fin p) : st.gradAgg c = ∑ i, st.dual i * P.a i c := by
  induction h with
  | init => simp [sfwInit]
  | @step hist st st' batch t hr hs ih =>
    have ih' := ih fun e he => hnd e (by simp [he])
    obtain ⟨-, d, g, act, hd, -, -, -, rfl⟩ := sfwStep_ok hs
    show st.gradAgg c + sfwDelta P batch st.dual d.1 c = ∑ i, d.1 i * P.a i c
    rw [ih', sfwDelta_eq P (hnd (st.x, batch) (by simp)) st.dual d.1 (fun i hi => sfwDual_out hd i hi), ← Finset.sum_add_distrib]
    exact Finset.sum_congr rfl fun i _ => by ring

/-- **C67 (memory).** For SAG and SAGA a sample never drawn has dual variable 0, and any other sample's dual variable is `1/n` times the derivative at
the iterate at which it was last drawn. -/
theorem C67_memory (P : SfwArgs K n p V) (v : SfwVariant) (hv : v = .SAG ∨ v = .SAGA) (hist : List ((Fin p → K) × List (Fin n)))
    (st : SfwState K n p V) (h : SfwReach P v hist st) (i : Fin n) :
    ((∀ e ∈ hist, i ∉ e.2) → st.dual i = 0) ∧
      ∀ pre x batch post, hist = pre ++ (x, batch) :: post → i ∈ batch → (∀ e ∈ post, i ∉ e.2) →
        st.dual i = 1 / (n : K) * P.deriv (∑ c, P.a i c * x c) (P.b i) := by
  induction h with
  | init => exact ⟨fun _ => rfl, fun pre x batch post h => by simp at h⟩
  | @step hist st st' batch t hr hs ih =>
    obtain ⟨-, d, g, act, hd, -, -, -, rfl⟩ := sfwStep_ok hs
    have hdv : ∀ i ∈ batch, d.1 i = 1 / (n : K) * P.deriv (∑ c, P.a i c * st.x c) (P.b i) := by
      intro i hi
      rcases hv with rfl | rfl
      all_goals
        simp only [sfwDual, Except.ok.injEq] at hd
        rw [← hd]; exact if_pos hi
    refine ⟨fun hno => ?_, fun pre x b post he hi hpost => ?_⟩
    · show d.1 i = 0
      rw [sfwDual_out hd i (hno (st.x, batch) (by simp))]
      exact ih.1 fun e he => hno e (by simp [he])
    · show d.1 i = _
      rcases List.eq_nil_or_concat post with rfl | ⟨post', q, rfl⟩
      · have := List.append_inj' (he.trans (by rfl : pre ++ (x, b) :: [] = pre ++ [(x, b)])) rfl
        obtain ⟨-, h3⟩ := this
        simp only [List.cons.injEq, Prod.mk.injEq, and_true] at h3
        obtain ⟨rfl, rfl⟩ := h3
        exact hdv i hi
      · have h4 : hist ++ [(st.x, batch)] = (pre ++ (x, b) :: post') ++ [q] := by rw [he]; simp
        obtain ⟨h5, h6⟩ := List.append_inj' h4 rfl
        simp only [List.cons.injEq, and_true] at h6
        have hni : i ∉ batch := by
          have := hpost q (by simp)
          rw [← h6] at this; exact this
        rw [sfwDual_out hd i hni]
        exact ih.2 pre x b post' h5 hi fun e he => hpost e (by simp [he])

/-- **C67 (unbiased).** At every reachable state of the SAGA variant with `batch_size = 1` histories, the gradient estimate handed to the oracle,
averaged over the sample drawn, is the gradient of `(1/n) ∑ f(⟨A_i, ·⟩, b_i)` at the current iterate. -/
theorem C67_unbiased (P : SfwArgs K n p V) (hist : List ((Fin p → K) × List (Fin n))) (st : SfwState K n p V) (h : SfwReach P .SAGA hist st)
    (hnd : ∀ e ∈ hist, e.2.Nodup) (hn : 0 < n) (g : Option K) : ∃ d : Fin n → (Fin n → K) × (Fin n → K),
      (∀ i, sfwDual P .SAGA g st [i] = .ok (d i)) ∧
      ∀ c, (∑ i, sfwEstimate P .SAGA st [i] (d i).1 c) / (n : K) = finiteSumGrad P.a P.b P.deriv 0 st.x c := by
  have hagg := C67_aggregate P .SAGA hist st h hnd
  have hn' : (n : K) ≠ 0 := by exact_mod_cast hn.ne'
  refine ⟨fun i => _, fun i => rfl, fun c => ?_⟩
  have hterm : ∀ i : Fin n, sfwEstimate P .SAGA st [i] (assignAt st.dual [i] fun i => 1 / (n : K) * P.deriv (sfwDot P st.x i) (P.b i)) c =
      st.gradAgg c + (P.deriv (∑ c, P.a i c * st.x c) (P.b i) * P.a i c - n * (st.dual i * P.a i c)) := by
    intro i
    unfold sfwEstimate sfwDelta assignAt sfwDot
    simp only [List.map_cons, List.map_nil, List.sum_cons, List.sum_nil, List.mem_singleton, if_true, add_zero]
    field_simp
    ring
  simp only [hterm]
  rw [Finset.sum_add_distrib, Finset.sum_const, Finset.card_univ, Fintype.card_fin, Finset.sum_sub_distrib, ← Finset.mul_sum, ← hagg c, nsmul_eq_mul]
  unfold finiteSumGrad
  rw [zero_mul, add_zero]
  congr 1
  ring

/-- C67 for the arrays of a finished call: if every batch drawn is without repetition and no `nan` appeared, the final aggregate is consistent. -/
theorem C67_minimize (P : SfwArgs K n p V) (r : SfwResult K n p V) (h : minimizeSfw P = .ok r)
    (hnd : ∀ it, ∀ b ∈ sfwBatches n P.batchSize (P.order it), b.Nodup) (st : SfwState K n p V) (hst : r.final.st = some st) :
    r.x = some st.x ∧ ∀ c, st.gradAgg c = ∑ i, st.dual i * P.a i c := by
  obtain ⟨v, -, -, -, -, -, hl, hrx, -, -⟩ := minimizeSfw_ok h
  obtain ⟨hist, h1, h2⟩ := sfwLoop_reach (Q := List.Nodup) hnd _ _ _ _ hl
    (fun st hs => by simp only [Option.some.injEq] at hs; rw [← hs]; exact ⟨[], SfwReach.init, by simp⟩) st hst
  exact ⟨by rw [hrx, hst]; rfl, C67_aggregate P v hist st h1 h2⟩

end Run

end Copt
