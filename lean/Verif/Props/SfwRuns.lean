import Verif.Props.SfwRate
import Mathlib.Analysis.SpecialFunctions.Pow.Real
import Mathlib.Analysis.Convex.SpecificFunctions.Basic
import Mathlib.Data.List.OfFn

/-!
# C106: `minimize_sfw` in the mean over the sampled batches (SAG, SAGA, MHK)

`SfwRate.lean` bounds the mean of one batch step; here the runs of `minimize_sfw` are put together: the batches of all epochs are enumerated by `ws`, the
call with these draws returns a point of the set, and the mean of its objective over all `ws` (the expectation of the uniform sampling) is bounded.
-/

set_option linter.unusedSectionVars false

namespace Copt

open Spec

/-- Cutting a concatenation of pieces of length `b`. -/
theorem flatten_cut {α : Type} {b : ℕ} : ∀ (L : List (List α)), (∀ l ∈ L, l.length = b) → ∀ k (hk : k < L.length),
    (L.flatten.take (k * b + b)).drop (k * b) = L[k] := by
  intro L
  induction L with
  | nil => intro _ k hk; simp at hk
  | cons l L ih =>
    intro hL k hk
    have hl : l.length = b := hL l (by simp)
    cases k with
    | zero =>
      simp only [Nat.zero_mul, Nat.zero_add, List.drop_zero, List.flatten_cons, List.getElem_cons_zero]
      rw [List.take_append_of_le_length (by omega), List.take_of_length_le (by omega)]
    | succ k =>
      have hk' : k < L.length := by simpa using hk
      have := ih (fun l hl => hL l (List.mem_cons_of_mem _ hl)) k hk'
      rw [List.flatten_cons, List.getElem_cons_succ, ← this, List.take_append, List.drop_append]
      have e1 : (k + 1) * b + b - l.length = k * b + b := by rw [hl]; rw [Nat.add_mul]; omega
      have h2 : (l.take ((k + 1) * b + b)).length = b := by
        rw [List.length_take, hl]
        exact min_eq_right (by rw [Nat.add_mul]; omega)
      have e2 : (k + 1) * b - (l.take ((k + 1) * b + b)).length = k * b := by rw [h2, Nat.add_mul]; omega
      rw [e1, e2, List.drop_eq_nil_of_le (by rw [h2, Nat.add_mul]; omega), List.nil_append]

/-- The batches of the loop are the batches drawn. -/
theorem sfwBatches_draws {n b m : ℕ} (hb : 0 < b) (hm : m * b ≤ n) (e : Fin m → (Fin b ↪ Fin n)) :
    sfwBatches n b (List.ofFn fun k => List.ofFn (e k)).flatten = List.ofFn fun k => List.ofFn (e k) := by
  set L : List (List (Fin n)) := List.ofFn fun k => List.ofFn (e k) with hL
  have hlen : L.length = m := by simp [hL]
  have hall : ∀ l ∈ L, l.length = b := by
    intro l hl
    obtain ⟨k, rfl⟩ := List.mem_ofFn.mp hl
    simp
  have hfl : L.flatten.length = m * b := by
    rw [List.length_flatten, List.map_congr_left (g := fun _ => b) hall]
    simp [hlen]
  have hcount : (L.flatten.length + b - 1) / b = L.length := by
    rw [hfl, hlen, Nat.add_sub_assoc hb, mul_comm, Nat.mul_add_div hb, Nat.div_eq_of_lt (by omega), add_zero]
  unfold sfwBatches
  rw [hcount]
  refine List.ext_getElem (by simp) fun k h1 h2 => ?_
  rw [List.getElem_map, List.getElem_range]
  have hk : k < m := by rw [← hlen]; exact h2
  have hkb : k * b + b ≤ n := by
    calc k * b + b = (k + 1) * b := by ring
      _ ≤ m * b := Nat.mul_le_mul_right _ hk
      _ ≤ n := hm
  rw [min_eq_left hkb]
  exact flatten_cut L hall k h2

variable {n p : ℕ} {V : Type} [DecidableEq V] {P : SfwArgs ℝ n p V} {C : Set (Fin p → ℝ)} {phi : ℝ → ℝ → ℝ} {l D : ℝ}

/-- Without the `break` the inner loops of two epochs are one loop. -/
theorem sfwInner_append (htol : P.tol ≤ 0) (v : SfwVariant) (l₂ : List (List (Fin n))) : ∀ (l₁ : List (List (Fin n))) (r : SfwRun ℝ n p V),
    sfwInner P v (l₁ ++ l₂) r = (sfwInner P v l₁ r).bind (sfwInner P v l₂) := by
  generalize hG : sfwInner P v l₂ = G
  intro l₁
  induction l₁ with
  | nil => intro r; rw [← hG]; rfl
  | cons b bs ih =>
    intro r
    rw [List.cons_append]
    unfold sfwInner
    cases hst : r.st with
    | none => exact ih _
    | some st =>
      simp only [bind]
      cases sfwStep P v r.step st b with
      | error e => rfl
      | ok o =>
        cases o with
        | none => exact ih _
        | some st' =>
          have hn : ¬∑ c, |st'.x c - st.x c| < P.tol := not_lt.mpr (htol.trans (Finset.sum_nonneg fun c _ => abs_nonneg _))
          simp only [Except.bind, if_neg hn]
          exact ih _

/-- The epochs as one loop over all the batches. -/
theorem sfwLoop_flat (htol : P.tol ≤ 0) (v : SfwVariant) (B : ℕ → List (List (Fin n))) : ∀ (rem it : ℕ) (r : SfwRun ℝ n p V),
    (∀ k, it ≤ k → k < it + rem → sfwBatches n P.batchSize (P.order k) = B k) →
    sfwLoop P v rem it r = sfwInner P v (List.ofFn fun k : Fin rem => B (it + k)).flatten r := by
  intro rem
  induction rem with
  | zero => intro it r _; rfl
  | succ rem ih =>
    intro it r h
    unfold sfwLoop
    rw [List.ofFn_succ, List.flatten_cons, sfwInner_append htol, h it (le_refl _) (by omega)]
    simp only [bind, Fin.val_zero, add_zero]
    cases sfwInner P v (B it) r with
    | error e => rfl
    | ok r1 =>
      simp only [Except.bind]
      rw [ih (it + 1) r1 fun k h1 h2 => h k (by omega) (by omega)]
      congr 3
      funext k
      rw [Fin.val_succ]
      congr 1
      ring

theorem sfwInner_order (o : ℕ → List (Fin n)) (v : SfwVariant) : ∀ (bs : List (List (Fin n))) (r : SfwRun ℝ n p V),
    sfwInner { P with order := o } v bs r = sfwInner P v bs r := by
  intro bs
  induction bs with
  | nil => intro r; rfl
  | cons b bs ih =>
    intro r
    unfold sfwInner
    have hstep : ∀ st, sfwStep { P with order := o } v r.step st b = sfwStep P v r.step st b := fun _ => rfl
    simp only [hstep, ih]

/-- A run whose batches are the draws `ws` is one loop over these batches. -/
theorem minimizeSfw_draws (hreg : SfwRegular P C phi l D) (htol : P.tol ≤ 0) {v : SfwVariant} (hv : parseVariant P.variant = some v) (hmax : 0 < P.maxIter)
    (ws : Fin (P.maxIter * (n / P.batchSize)) → (Fin P.batchSize ↪ Fin n)) (st : SfwState ℝ n p V) (t : ℕ) (suc : Bool)
    (h : sfwInner P v (List.ofFn fun k => List.ofFn (ws k)) ⟨some (sfwInit P), 0, false⟩ = .ok ⟨some st, t, suc⟩) :
    ∃ r, minimizeSfw { P with order := sfwOrder P.maxIter ws } = .ok r ∧ r.x = some st.x := by
  obtain ⟨k, hk⟩ : ∃ k, P.maxIter = k + 1 := ⟨P.maxIter - 1, by omega⟩
  set P' : SfwArgs ℝ n p V := { P with order := sfwOrder P.maxIter ws } with hP'
  have hloop : sfwLoop P' v P.maxIter 0 ⟨some (sfwInit P'), 0, false⟩ = .ok ⟨some st, t, suc⟩ := by
    have e := sfwLoop_flat (P := P') htol v (fun it => sfwBatches n P.batchSize (P'.order it)) P.maxIter 0 ⟨some (sfwInit P'), 0, false⟩
      (fun k _ _ => rfl)
    rw [e, hP', sfwInner_order]
    rw [List.ofFn_mul] at h
    refine Eq.trans ?_ h
    congr 3
    funext i
    rw [zero_add]
    show sfwBatches n P.batchSize (sfwOrder P.maxIter ws i) = _
    unfold sfwOrder
    rw [dif_pos i.isLt]
    exact sfwBatches_draws hreg.batch (Nat.div_mul_le_self _ _) _
  unfold minimizeSfw
  rw [show P'.variant = P.variant from rfl, hv]
  simp only
  rw [if_neg (not_not.mpr (Or.inl hreg.vanilla)), if_neg (by rw [show P'.stepSize = P.stepSize from rfl, hreg.step]; simp),
    show P'.maxIter = k + 1 from hk]
  simp only
  rw [if_neg (by have := hreg.batch; show ¬P.batchSize = 0; omega), ← hk, hloop]
  exact ⟨_, rfl, rfl⟩

theorem sfwInit_inv (hreg : SfwRegular P C phi l D) : SfwInv P C (sfwInit P) :=
  ⟨hreg.start, by simp [sfwInit, hreg.vanilla], fun c => by simp [sfwInit]⟩

theorem sfwErr_init (v : SfwVariant) (j : Fin n) : sfwErr P v (sfwInit P) j = |P.deriv (sfwDot P P.x0 j) (P.b j)| := by
  simp [sfwErr, sfwInit]

theorem sfw_q (hreg : SfwRegular P C phi l D) : 0 < (P.batchSize : ℝ) / n ∧ (P.batchSize : ℝ) / n ≤ 1 := by
  have hn : (0 : ℝ) < n := by exact_mod_cast hreg.samples
  have hb : (0 : ℝ) < P.batchSize := by exact_mod_cast hreg.batch
  refine ⟨by positivity, ?_⟩
  rw [div_le_one hn]
  exact_mod_cast hreg.batch_le

/-- The weights of the SAG and SAGA variants. -/
theorem sfw_weights_sag (hreg : SfwRegular P C phi l D) (hD : 0 ≤ D) {v : SfwVariant} (hv : v = .SAG ∨ v = .SAGA) :
    SfwWeights P v l D (fun t => t * (t + 1))
      (fun t => 2 * D * (1 + sfwExtra v n * (P.batchSize / n)) / (n * (P.batchSize / n)) * (t + 1 / (P.batchSize / n))) := by
  have hn : (0 : ℝ) < n := by exact_mod_cast hreg.samples
  obtain ⟨hq, hq1⟩ := sfw_q hreg
  set q : ℝ := (P.batchSize : ℝ) / n with hqdef
  have hx : 0 ≤ sfwExtra v n := by rcases hv with rfl | rfl <;> simp [sfwExtra]
  have hgain : ∀ t, sfwGain P v t = 1 := by intro t; rcases hv with rfl | rfl <;> rfl
  have hgam : ∀ t, sfwGamma P v t = 2 / ((t : ℝ) + 2) := by intro t; rcases hv with rfl | rfl <;> rfl
  set κ : ℝ := 1 + sfwExtra v n * q with hκ
  have hκ0 : 0 ≤ κ := by positivity
  refine ⟨fun t => by positivity, fun t => by positivity, fun t => by rw [hgain]; exact ⟨zero_le_one, le_refl _⟩, fun t => ?_, fun t => ?_⟩
  · rw [hgam]
    push_cast
    have : (t : ℝ) + 2 ≠ 0 := by positivity
    field_simp
    ring
  · rw [hgam, hgain]
    push_cast
    have ht : (t : ℝ) + 2 ≠ 0 := by positivity
    have e1 : ((t : ℝ) + 1) * (t + 1 + 1) * (2 / (t + 2) * (D / n * κ)) = 2 * D * κ / (n * q) * (q * (t + 1)) := by
      field_simp
      ring
    rw [e1, one_mul, ← hqdef, mul_assoc _ _ (1 - q), ← mul_add]
    refine mul_le_mul_of_nonneg_left (le_of_eq ?_) (by positivity)
    field_simp
    ring

/-- The mean over all draws of the objective after the whole run, for given weights. -/
theorem sfw_run_mean (hreg : SfwRegular P C phi l D) (htol : P.tol ≤ 0) {v : SfwVariant} (hpv : parseVariant P.variant = some v) (hv : v ≠ .LF) {a c : ℕ → ℝ}
    (hw : SfwWeights P v l D a c) (hmax : 0 < P.maxIter) :
    ∃ x : (Fin (P.maxIter * (n / P.batchSize)) → (Fin P.batchSize ↪ Fin n)) → (Fin p → ℝ),
      (∀ ws, x ws ∈ C ∧ ∃ r, minimizeSfw { P with order := sfwOrder P.maxIter ws } = .ok r ∧ r.x = some (x ws)) ∧
      ∀ z ∈ C, a (P.maxIter * (n / P.batchSize)) * ((∑ ws, (finiteSum P.a P.b phi 0 (x ws) - finiteSum P.a P.b phi 0 z)) /
            (Fintype.card (Fin (P.maxIter * (n / P.batchSize)) → (Fin P.batchSize ↪ Fin n)) : ℝ)) ≤
          a 0 * (finiteSum P.a P.b phi 0 P.x0 - finiteSum P.a P.b phi 0 z) + c 0 * ∑ j, |P.deriv (∑ c, P.a j c * P.x0 c) (P.b j)| +
            ∑ i ∈ Finset.range (P.maxIter * (n / P.batchSize)),
              (a (i + 1) * (l * sfwGamma P v i ^ 2 * D ^ 2 / 2) + c (i + 1) * (n * (l * sfwGamma P v i * D))) := by
  have steps := fun z hz => sfw_mean_steps hreg hv hw htol (z := z) hz false (P.maxIter * (n / P.batchSize)) 0 (sfwInit P) (sfwInit_inv hreg)
  obtain ⟨s, hs1, hs2, -⟩ := steps P.x0 hreg.start
  refine ⟨fun ws => (s ws).x, fun ws => ⟨(hs2 ws).mem, minimizeSfw_draws hreg htol hpv hmax ws _ _ _ (hs1 ws)⟩, ?_⟩
  intro z hz
  obtain ⟨s', hs1', -, h3⟩ := steps z hz
  have hss : s' = s := by
    funext ws
    have := (hs1' ws).symm.trans (hs1 ws)
    simpa using this
  rw [hss] at h3
  simp only [zero_add, sfwErr_init] at h3
  rw [Fintype.card_fun, Fintype.card_fin, Nat.cast_pow]
  set N : ℝ := (Fintype.card (Fin P.batchSize ↪ Fin n) : ℝ) ^ (P.maxIter * (n / P.batchSize)) with hN
  have hN0 : 0 < N := by
    have : Nonempty (Fin P.batchSize ↪ Fin n) := ⟨Fin.castLEEmb hreg.batch_le⟩
    have : (0 : ℝ) < Fintype.card (Fin P.batchSize ↪ Fin n) := by exact_mod_cast Fintype.card_pos
    positivity
  refine le_trans ?_ h3
  rw [← mul_div_assoc, Finset.mul_sum]
  refine div_le_div_of_nonneg_right (Finset.sum_le_sum fun ws _ => ?_) hN0.le
  have := mul_nonneg (hw.c_nonneg (P.maxIter * (n / P.batchSize))) (Finset.sum_nonneg fun j (_ : j ∈ Finset.univ) => (abs_nonneg _ : 0 ≤ sfwErr P v (s ws) j))
  exact le_add_of_nonneg_right this

/-- C106 (SAG, SAGA): with the default step size and `tol ≤ 0` no run raises, and the mean over all draws of the objective of the returned `x` is within
`O(1/T)` of its value at any point `z` of the set, where `T = max_iter * (n_samples // batch_size)` is the number of batches. -/
theorem C106_sag_saga (hreg : SfwRegular P C phi l D) (htol : P.tol ≤ 0) (hv : P.variant = "SAG" ∨ P.variant = "SAGA") (hmax : 0 < P.maxIter) :
    ∃ x : (Fin (P.maxIter * (n / P.batchSize)) → (Fin P.batchSize ↪ Fin n)) → (Fin p → ℝ),
      (∀ ws, x ws ∈ C ∧ ∃ r, minimizeSfw { P with order := sfwOrder P.maxIter ws } = .ok r ∧ r.x = some (x ws)) ∧
      ∀ z ∈ C, ∀ (κ q T : ℝ), κ = (if P.variant = "SAG" then (1 : ℝ) else 1 + P.batchSize) → q = P.batchSize / n →
        T = (P.maxIter * (n / P.batchSize) : ℕ) →
        (∑ ws, (finiteSum P.a P.b phi 0 (x ws) - finiteSum P.a P.b phi 0 z)) /
            (Fintype.card (Fin (P.maxIter * (n / P.batchSize)) → (Fin P.batchSize ↪ Fin n)) : ℝ) ≤
          (2 * κ * D / q ^ 2 * ((∑ j, |P.deriv (∑ c, P.a j c * P.x0 c) (P.b j)|) / n) + T * (l * D ^ 2 * (2 + 4 * κ / q ^ 2))) / (T * (T + 1)) := by
  have hn : (0 : ℝ) < n := by exact_mod_cast hreg.samples
  have hl := hreg.lip_nonneg
  have hD : 0 ≤ D := (abs_nonneg _).trans (hreg.diam _ hreg.start _ hreg.start ⟨0, hreg.samples⟩)
  obtain ⟨v, hpv, hv', hκv⟩ : ∃ v, parseVariant P.variant = some v ∧ (v = .SAG ∨ v = .SAGA) ∧
      1 + sfwExtra v n * (P.batchSize / n) = (if P.variant = "SAG" then (1 : ℝ) else 1 + P.batchSize) := by
    rcases hv with h | h
    · exact ⟨.SAG, by rw [h]; simp [parseVariant], Or.inl rfl, by rw [h]; simp [sfwExtra]⟩
    · refine ⟨.SAGA, by rw [h]; simp [parseVariant], Or.inr rfl, ?_⟩
      rw [h, if_neg (by decide)]
      simp only [sfwExtra]
      rw [mul_div_cancel₀ _ hn.ne']
  have hne : v ≠ .LF := by rcases hv' with rfl | rfl <;> simp
  have hTpos : 0 < P.maxIter * (n / P.batchSize) := Nat.mul_pos hmax (Nat.div_pos hreg.batch_le hreg.batch)
  obtain ⟨x, hx1, hx2⟩ := sfw_run_mean hreg htol hpv hne (sfw_weights_sag hreg hD hv') hmax
  refine ⟨x, hx1, ?_⟩
  intro z hz κ q T hκ hqd hT
  have h3 := hx2 z hz
  obtain ⟨hq, hq1⟩ := sfw_q hreg
  rw [← hqd] at hq hq1
  have hκ' : 1 + sfwExtra v n * q = κ := by rw [hqd, hκv, hκ]
  simp only [← hqd, hκ'] at h3
  have hκ1 : 1 ≤ κ := by rw [hκ]; split <;> simp
  have hT0 : 0 < T := by rw [hT]; exact_mod_cast hTpos
  rw [← hT] at h3
  have hgam : ∀ t, sfwGamma P v t = 2 / ((t : ℝ) + 2) := by intro t; rcases hv' with rfl | rfl <;> rfl
  -- the increments
  have hinc : ∑ i ∈ Finset.range (P.maxIter * (n / P.batchSize)), ((((i + 1 : ℕ) : ℝ) * (((i + 1 : ℕ) : ℝ) + 1)) * (l * sfwGamma P v i ^ 2 * D ^ 2 / 2) +
      2 * D * κ / (n * q) * (((i + 1 : ℕ) : ℝ) + 1 / q) * (n * (l * sfwGamma P v i * D))) ≤ T * (l * D ^ 2 * (2 + 4 * κ / q ^ 2)) := by
    have hb : ∀ i ∈ Finset.range (P.maxIter * (n / P.batchSize)), ((((i + 1 : ℕ) : ℝ) * (((i + 1 : ℕ) : ℝ) + 1)) * (l * sfwGamma P v i ^ 2 * D ^ 2 / 2) +
      2 * D * κ / (n * q) * (((i + 1 : ℕ) : ℝ) + 1 / q) * (n * (l * sfwGamma P v i * D))) ≤ l * D ^ 2 * (2 + 4 * κ / q ^ 2) := by
      intro i _
      rw [hgam]
      push_cast
      have hi : (0 : ℝ) < (i : ℝ) + 2 := by positivity
      have e1 : ((i : ℝ) + 1) * (i + 1 + 1) * (l * (2 / (i + 2)) ^ 2 * D ^ 2 / 2) = l * D ^ 2 * (2 * ((i + 1) / (i + 2))) := by
        field_simp
        ring
      have e2 : 2 * D * κ / (n * q) * ((i : ℝ) + 1 + 1 / q) * (n * (l * (2 / (i + 2)) * D)) = l * D ^ 2 * (4 * κ / q ^ 2 * ((q * (i + 1) + 1) / (i + 2))) := by
        field_simp
        ring
      rw [e1, e2, ← mul_add]
      have b1 : ((i : ℝ) + 1) / (i + 2) ≤ 1 := by rw [div_le_one hi]; linarith
      have b2 : (q * ((i : ℝ) + 1) + 1) / (i + 2) ≤ 1 := by
        rw [div_le_one hi]
        have : q * ((i : ℝ) + 1) ≤ 1 * (i + 1) := mul_le_mul_of_nonneg_right hq1 (by positivity)
        linarith
      refine mul_le_mul_of_nonneg_left ?_ (by positivity)
      have : 4 * κ / q ^ 2 * ((q * ((i : ℝ) + 1) + 1) / (i + 2)) ≤ 4 * κ / q ^ 2 * 1 := mul_le_mul_of_nonneg_left b2 (by positivity)
      linarith
    refine (Finset.sum_le_sum hb).trans (le_of_eq ?_)
    rw [Finset.sum_const, Finset.card_range, nsmul_eq_mul, ← hT]
  have e0 : 2 * D * κ / (n * q) * (((0 : ℕ) : ℝ) + 1 / q) * ∑ j, |P.deriv (∑ c, P.a j c * P.x0 c) (P.b j)| =
      2 * κ * D / q ^ 2 * ((∑ j, |P.deriv (∑ c, P.a j c * P.x0 c) (P.b j)|) / n) := by
    push_cast
    field_simp
    ring
  rw [e0, Nat.cast_zero, zero_mul, zero_mul, zero_add] at h3
  rw [le_div_iff₀ (by positivity), mul_comm]
  exact h3.trans (by linarith)

/-! ### The MHK variant -/

/-- `u^(5/3)` grows by at most `5/3 u^(2/3)` from `u - 1` to `u`. -/
theorem rpow53_step {u : ℝ} (hu : 1 ≤ u) : u ^ (5 / 3 : ℝ) - 5 / 3 * u ^ (2 / 3 : ℝ) ≤ (u - 1) ^ (5 / 3 : ℝ) := by
  have hu0 : 0 < u := by linarith
  have h := one_add_mul_self_le_rpow_one_add (s := -(1 / u)) (p := 5 / 3) (by
    rw [neg_le_neg_iff, div_le_one hu0]; exact hu) (by norm_num)
  have e : u - 1 = u * (1 + -(1 / u)) := by field_simp; ring
  have e2 : u ^ (5 / 3 : ℝ) = u ^ (2 / 3 : ℝ) * u := by
    rw [show (5 / 3 : ℝ) = 2 / 3 + 1 by norm_num, Real.rpow_add hu0, Real.rpow_one]
  rw [e, Real.mul_rpow hu0.le (by
    have : 1 / u ≤ 1 := by rw [div_le_one hu0]; exact hu
    linarith)]
  have h2 := mul_le_mul_of_nonneg_left h (Real.rpow_nonneg hu0.le (5 / 3))
  refine le_trans (le_of_eq ?_) h2
  rw [e2]
  field_simp
  ring

theorem two_rpow_cube : ((2 : ℝ) ^ (2 / 3 : ℝ)) ^ 3 = 4 := by
  rw [← Real.rpow_natCast, ← Real.rpow_mul (by norm_num)]
  norm_num

theorem rpow13_cube {u : ℝ} (hu : 0 ≤ u) : (u ^ (1 / 3 : ℝ)) ^ 3 = u := by
  rw [← Real.rpow_natCast, ← Real.rpow_mul hu]
  norm_num

/-- The weights of the MHK variant. -/
theorem sfw_weights_mhk (hreg : SfwRegular P C phi l D) (hD : 0 ≤ D) (hcb : ∀ y : ℝ, 0 ≤ y → P.cbrtSq y = y ^ (2 / 3 : ℝ)) :
    SfwWeights P .MHK l D (fun t => (t + 6) * (t + 7))
      (fun t => 4 * D / (n * ((2 : ℝ) ^ (2 / 3 : ℝ) * (P.batchSize / n))) * (t + 10 / (P.batchSize / n) ^ 3) ^ (5 / 3 : ℝ)) := by
  have hn : (0 : ℝ) < n := by exact_mod_cast hreg.samples
  obtain ⟨hq, hq1⟩ := sfw_q hreg
  set q : ℝ := (P.batchSize : ℝ) / n with hqdef
  set θ : ℝ := (2 : ℝ) ^ (2 / 3 : ℝ) with hθ
  have hθ0 : 0 < θ := Real.rpow_pos_of_pos (by norm_num) _
  set B : ℝ := 10 / q ^ 3 with hB
  have hB10 : 10 ≤ B := by
    rw [hB, le_div_iff₀ (by positivity)]
    have : q ^ 3 ≤ 1 := pow_le_one₀ hq.le hq1
    linarith
  have hgam : ∀ t, sfwGamma P .MHK t = 2 / ((t : ℝ) + 8) := fun t => rfl
  have hgain : ∀ t, sfwGain P .MHK t = θ / ((t : ℝ) + 8) ^ (2 / 3 : ℝ) := by
    intro t
    show P.cbrtSq (2 / ((t : ℝ) + 8)) = _
    rw [hcb _ (by positivity), Real.div_rpow (by norm_num) (by positivity)]
  refine ⟨fun t => by positivity, fun t => ?_, fun t => ⟨?_, ?_⟩, fun t => ?_, fun t => ?_⟩
  · have : 0 ≤ ((t : ℝ) + B) ^ (5 / 3 : ℝ) := Real.rpow_nonneg (by positivity) _
    positivity
  · rw [hgain]
    have : 0 < ((t : ℝ) + 8) ^ (2 / 3 : ℝ) := Real.rpow_pos_of_pos (by positivity) _
    positivity
  · show P.cbrtSq (2 / ((t : ℝ) + 8)) ≤ 1
    rw [hcb _ (by positivity)]
    refine Real.rpow_le_one (by positivity) ?_ (by norm_num)
    rw [div_le_one (by positivity)]
    have : (0 : ℝ) ≤ t := Nat.cast_nonneg t
    linarith
  · rw [hgam]
    push_cast
    have : (t : ℝ) + 8 ≠ 0 := by positivity
    field_simp
    ring
  · rw [hgam, hgain]
    have ht : (0 : ℝ) ≤ t := Nat.cast_nonneg t
    push_cast
    simp only [sfwExtra, zero_mul, add_zero, mul_one]
    set u : ℝ := (t : ℝ) + 1 + B with hu
    have hu1 : 1 ≤ u := by rw [hu]; linarith
    have hu0 : 0 < u := by linarith
    rw [show (t : ℝ) + B = u - 1 by rw [hu]; ring]
    set K : ℝ := 4 * D / (n * (θ * q)) with hK
    have hK0 : 0 ≤ K := by positivity
    have h1 := mul_le_mul_of_nonneg_left (rpow53_step hu1) hK0
    have e1 : ((t : ℝ) + 1 + 6) * (t + 1 + 7) * (2 / (t + 8) * (D / n)) = 2 * (t + 7) * (D / n) := by
      have : (t : ℝ) + 8 ≠ 0 := by positivity
      field_simp
      ring
    have hU : 0 < u ^ (2 / 3 : ℝ) := Real.rpow_pos_of_pos hu0 _
    have e2 : u ^ (5 / 3 : ℝ) = u ^ (2 / 3 : ℝ) * u := by
      rw [show (5 / 3 : ℝ) = 2 / 3 + 1 by norm_num, Real.rpow_add hu0, Real.rpow_one]
    have e3 : u = u ^ (2 / 3 : ℝ) * u ^ (1 / 3 : ℝ) := by
      rw [← Real.rpow_add hu0, show (2 / 3 : ℝ) + 1 / 3 = 1 by norm_num, Real.rpow_one]
    have h2 : θ * q * u ≤ u ^ (5 / 3 : ℝ) * (θ / ((t : ℝ) + 8) ^ (2 / 3 : ℝ) * q) := by
      have hp : 0 < ((t : ℝ) + 8) ^ (2 / 3 : ℝ) := Real.rpow_pos_of_pos (by positivity) _
      have hle : ((t : ℝ) + 8) ^ (2 / 3 : ℝ) ≤ u ^ (2 / 3 : ℝ) := Real.rpow_le_rpow (by positivity) (by rw [hu]; linarith) (by norm_num)
      have h4 : 1 ≤ u ^ (2 / 3 : ℝ) / ((t : ℝ) + 8) ^ (2 / 3 : ℝ) := by rw [le_div_iff₀ hp, one_mul]; exact hle
      calc θ * q * u = θ * q * u * 1 := by ring
        _ ≤ θ * q * u * (u ^ (2 / 3 : ℝ) / ((t : ℝ) + 8) ^ (2 / 3 : ℝ)) := mul_le_mul_of_nonneg_left h4 (by positivity)
        _ = _ := by rw [e2]; ring
    have h3 : 10 / 3 ≤ θ * q * u ^ (1 / 3 : ℝ) := by
      have hv0 : 0 ≤ u ^ (1 / 3 : ℝ) := Real.rpow_nonneg hu0.le _
      refine le_of_pow_le_pow_left₀ (n := 3) (by norm_num) (by positivity) ?_
      rw [mul_pow, mul_pow, rpow13_cube hu0.le, hθ, two_rpow_cube]
      have hBq : B * q ^ 3 = 10 := by rw [hB]; field_simp
      have : q ^ 3 * B ≤ q ^ 3 * u := mul_le_mul_of_nonneg_left (by rw [hu]; linarith) (by positivity)
      nlinarith
    have h5 : 5 / 3 * u ^ (2 / 3 : ℝ) ≤ θ * q * u / 2 := by
      have := mul_le_mul_of_nonneg_left h3 hU.le
      have e4 : u ^ (2 / 3 : ℝ) * (θ * q * u ^ (1 / 3 : ℝ)) = θ * q * u := by
        rw [show u ^ (2 / 3 : ℝ) * (θ * q * u ^ (1 / 3 : ℝ)) = θ * q * (u ^ (2 / 3 : ℝ) * u ^ (1 / 3 : ℝ)) by ring, ← e3]
      rw [e4] at this
      linarith
    have hKq : K * (θ * q * u) = 4 * u * (D / n) := by
      rw [hK]
      field_simp
    have h6 := mul_le_mul_of_nonneg_left h5 hK0
    have h7 := mul_le_mul_of_nonneg_left h2 hK0
    have h8 : ((t : ℝ) + 7) * (D / n) ≤ u * (D / n) := mul_le_mul_of_nonneg_right (by rw [hu]; linarith) (by positivity)
    rw [e1]
    calc 2 * ((t : ℝ) + 7) * (D / n) + K * u ^ (5 / 3 : ℝ) * (1 - θ / ((t : ℝ) + 8) ^ (2 / 3 : ℝ) * q)
        = 2 * (((t : ℝ) + 7) * (D / n)) + K * u ^ (5 / 3 : ℝ) - K * (u ^ (5 / 3 : ℝ) * (θ / ((t : ℝ) + 8) ^ (2 / 3 : ℝ) * q)) := by ring
      _ ≤ 2 * (u * (D / n)) + K * u ^ (5 / 3 : ℝ) - 4 * u * (D / n) := by linarith
      _ ≤ K * (u ^ (5 / 3 : ℝ) - 5 / 3 * u ^ (2 / 3 : ℝ)) := by
        rw [mul_sub]
        have : K * (θ * q * u / 2) = 2 * (u * (D / n)) := by
          rw [mul_div_assoc', hKq]; ring
        linarith
      _ ≤ _ := h1

/-- C106 (MHK): as `C106_sag_saga`, with the rate `O(T^(-1/3))`. -/
theorem C106_mhk (hreg : SfwRegular P C phi l D) (htol : P.tol ≤ 0) (hv : P.variant = "MHK") (hcb : ∀ y : ℝ, 0 ≤ y → P.cbrtSq y = y ^ (2 / 3 : ℝ))
    (hmax : 0 < P.maxIter) :
    ∃ x : (Fin (P.maxIter * (n / P.batchSize)) → (Fin P.batchSize ↪ Fin n)) → (Fin p → ℝ),
      (∀ ws, x ws ∈ C ∧ ∃ r, minimizeSfw { P with order := sfwOrder P.maxIter ws } = .ok r ∧ r.x = some (x ws)) ∧
      ∀ z ∈ C, ∀ (q B T : ℝ), q = P.batchSize / n → B = 10 / q ^ 3 → T = (P.maxIter * (n / P.batchSize) : ℕ) →
        (∑ ws, (finiteSum P.a P.b phi 0 (x ws) - finiteSum P.a P.b phi 0 z)) /
            (Fintype.card (Fin (P.maxIter * (n / P.batchSize)) → (Fin P.batchSize ↪ Fin n)) : ℝ) ≤
          (42 * (finiteSum P.a P.b phi 0 P.x0 - finiteSum P.a P.b phi 0 z) +
            4 * D / q * B ^ (5 / 3 : ℝ) * ((∑ j, |P.deriv (∑ c, P.a j c * P.x0 c) (P.b j)|) / n) +
            T * (l * D ^ 2 * (2 + 8 * B / q * (T + B) ^ (2 / 3 : ℝ)))) / ((T + 6) * (T + 7)) := by
  have hn : (0 : ℝ) < n := by exact_mod_cast hreg.samples
  have hl := hreg.lip_nonneg
  have hD : 0 ≤ D := (abs_nonneg _).trans (hreg.diam _ hreg.start _ hreg.start ⟨0, hreg.samples⟩)
  obtain ⟨x, hx1, hx2⟩ := sfw_run_mean hreg htol (v := .MHK) (by rw [hv]; simp [parseVariant]) (by simp) (sfw_weights_mhk hreg hD hcb) hmax
  refine ⟨x, hx1, ?_⟩
  intro z hz q B T hqd hBd hT
  have h3 := hx2 z hz
  obtain ⟨hq, hq1⟩ := sfw_q hreg
  rw [← hqd] at hq hq1
  set θ : ℝ := (2 : ℝ) ^ (2 / 3 : ℝ) with hθ
  have hθ1 : 1 ≤ θ := Real.one_le_rpow (by norm_num) (by norm_num)
  simp only [← hqd, ← hBd] at h3
  have hT0 : 0 ≤ T := by rw [hT]; exact Nat.cast_nonneg _
  rw [← hT] at h3
  have hB10 : 10 ≤ B := by
    rw [hBd, le_div_iff₀ (by positivity)]
    have : q ^ 3 ≤ 1 := pow_le_one₀ hq.le hq1
    linarith
  have hgam : ∀ t, sfwGamma P .MHK t = 2 / ((t : ℝ) + 8) := fun t => rfl
  have hinc : ∑ i ∈ Finset.range (P.maxIter * (n / P.batchSize)), (((((i + 1 : ℕ) : ℝ) + 6) * (((i + 1 : ℕ) : ℝ) + 7)) * (l * sfwGamma P .MHK i ^ 2 * D ^ 2 / 2) +
      4 * D / (n * (θ * q)) * (((i + 1 : ℕ) : ℝ) + B) ^ (5 / 3 : ℝ) * (n * (l * sfwGamma P .MHK i * D))) ≤
        T * (l * D ^ 2 * (2 + 8 * B / q * (T + B) ^ (2 / 3 : ℝ))) := by
    have hb : ∀ i ∈ Finset.range (P.maxIter * (n / P.batchSize)), (((((i + 1 : ℕ) : ℝ) + 6) * (((i + 1 : ℕ) : ℝ) + 7)) * (l * sfwGamma P .MHK i ^ 2 * D ^ 2 / 2) +
      4 * D / (n * (θ * q)) * (((i + 1 : ℕ) : ℝ) + B) ^ (5 / 3 : ℝ) * (n * (l * sfwGamma P .MHK i * D))) ≤
        l * D ^ 2 * (2 + 8 * B / q * (T + B) ^ (2 / 3 : ℝ)) := by
      intro i hi
      have hiT : (i : ℝ) + 1 ≤ T := by rw [hT]; exact_mod_cast Finset.mem_range.mp hi
      have hi0 : (0 : ℝ) ≤ i := Nat.cast_nonneg i
      rw [hgam]
      push_cast
      have hi8 : (0 : ℝ) < (i : ℝ) + 8 := by positivity
      have hu0 : 0 < (i : ℝ) + 1 + B := by linarith
      have e53 : ((i : ℝ) + 1 + B) ^ (5 / 3 : ℝ) = (i + 1 + B) ^ (2 / 3 : ℝ) * (i + 1 + B) := by
        rw [show (5 / 3 : ℝ) = 2 / 3 + 1 by norm_num, Real.rpow_add hu0, Real.rpow_one]
      have e1 : ((i : ℝ) + 1 + 6) * (i + 1 + 7) * (l * (2 / (i + 8)) ^ 2 * D ^ 2 / 2) = l * D ^ 2 * (2 * ((i + 7) / (i + 8))) := by
        field_simp
        ring
      have e2 : 4 * D / (n * (θ * q)) * ((i + 1 + B) ^ (2 / 3 : ℝ) * (i + 1 + B)) * (n * (l * (2 / ((i : ℝ) + 8)) * D)) =
          l * D ^ 2 * (8 / q * (((i : ℝ) + 1 + B) / (i + 8) * (1 / θ)) * (i + 1 + B) ^ (2 / 3 : ℝ)) := by
        field_simp
        ring
      rw [e53, e1, e2, ← mul_add]
      have b1 : ((i : ℝ) + 7) / (i + 8) ≤ 1 := by rw [div_le_one hi8]; linarith
      have b2 : ((i : ℝ) + 1 + B) / (i + 8) ≤ B := by
        rw [div_le_iff₀ hi8]
        nlinarith
      have b3 : 1 / θ ≤ 1 := by rw [div_le_one (by linarith)]; exact hθ1
      have b4 : ((i : ℝ) + 1 + B) / (i + 8) * (1 / θ) ≤ B * 1 := mul_le_mul b2 b3 (by positivity) (by linarith)
      have b5 : ((i : ℝ) + 1 + B) ^ (2 / 3 : ℝ) ≤ (T + B) ^ (2 / 3 : ℝ) := Real.rpow_le_rpow hu0.le (by linarith) (by norm_num)
      have b6 : 8 / q * (((i : ℝ) + 1 + B) / (i + 8) * (1 / θ)) * (i + 1 + B) ^ (2 / 3 : ℝ) ≤ 8 / q * (B * 1) * (T + B) ^ (2 / 3 : ℝ) :=
        mul_le_mul (mul_le_mul_of_nonneg_left b4 (by positivity)) b5 (Real.rpow_nonneg hu0.le _) (by positivity)
      refine mul_le_mul_of_nonneg_left ?_ (by positivity)
      have e7 : 8 / q * (B * 1) * (T + B) ^ (2 / 3 : ℝ) = 8 * B / q * (T + B) ^ (2 / 3 : ℝ) := by ring
      linarith
    refine (Finset.sum_le_sum hb).trans (le_of_eq ?_)
    rw [Finset.sum_const, Finset.card_range, nsmul_eq_mul, ← hT]
  rw [le_div_iff₀ (by positivity), mul_comm]
  refine h3.trans ?_
  have hS : 0 ≤ ∑ j, |P.deriv (∑ c, P.a j c * P.x0 c) (P.b j)| := Finset.sum_nonneg fun j _ => abs_nonneg _
  have hBp : 0 ≤ B ^ (5 / 3 : ℝ) := Real.rpow_nonneg (by linarith) _
  have e0 : 4 * D / (n * (θ * q)) * (((0 : ℕ) : ℝ) + B) ^ (5 / 3 : ℝ) * ∑ j, |P.deriv (∑ c, P.a j c * P.x0 c) (P.b j)| ≤
      4 * D / q * B ^ (5 / 3 : ℝ) * ((∑ j, |P.deriv (∑ c, P.a j c * P.x0 c) (P.b j)|) / n) := by
    rw [Nat.cast_zero, zero_add]
    have e : 4 * D / (n * (θ * q)) * B ^ (5 / 3 : ℝ) * ∑ j, |P.deriv (∑ c, P.a j c * P.x0 c) (P.b j)| =
      4 * D / q * B ^ (5 / 3 : ℝ) * ((∑ j, |P.deriv (∑ c, P.a j c * P.x0 c) (P.b j)|) / n) * (1 / θ) := by
      field_simp
    rw [e]
    refine mul_le_of_le_one_right (by positivity) ?_
    rw [div_le_one (by linarith)]
    exact hθ1
  have e42 : (((0 : ℕ) : ℝ) + 6) * (((0 : ℕ) : ℝ) + 7) = 42 := by norm_num
  rw [e42]
  linarith

end Copt
