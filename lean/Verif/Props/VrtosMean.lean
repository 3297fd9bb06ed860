import Verif.Proof.SubgradSum
import Verif.Props.VrtosBounds
import Verif.Props.SagaContraction

/-! # `minimize_vrtos`: convergence in mean square over uniformly drawn samples (C112) -/

set_option linter.unusedSectionVars false

namespace Copt

open Spec

/-- The mean over all sequences of `T` samples, each drawn independently and uniformly. -/
noncomputable def Spec.uniformMean {n T : ℕ} (φ : (Fin T → Fin n) → ℝ) : ℝ := (∑ js, φ js) / (n : ℝ) ^ T

variable {n p : ℕ}

/-- One prox half: distance to the shifted target `ys = xs - step w (G/2 + s)`, for a subgradient `s` of the penalty at `xs`. -/
theorem half_descent {B : BlockMat} {P : VrtosArgs ℝ n p} {hb : n = P.bSize} (hB : GoodBlocks B p) {S : Support n B.nb} (hok : SupportOk P.A hB S)
    {pen : Fin B.nb → (Fin p → ℝ) → ℝ} (hpen : IsBlockPenalty B.ptr pen) {prox : SparseProx ℝ p} (hprox : IsBlockProx pen prox) (hstep : 0 ≤ P.stepSize)
    {st : VrtosState ℝ n p} {i : Fin n} {y x y' x' v : Fin p → ℝ} {hs : List ℕ} (hr : S.row i = some hs)
    (hh : VrtosHalf P hb hB S prox st i y x y' x' hs v) (s G xs ys : Fin p → ℝ)
    (hsub : ∀ w, (∑ h, pen h xs) + dot s (w - xs) ≤ ∑ h, pen h w)
    (hys : ∀ c, ys c = xs c - P.stepSize * (blockWeight P.A hB c * (G c / 2 + s c))) (chi : Fin p → ℝ)
    (hchi : ∀ c, (Near P.A hB i c → chi c = 1) ∧ (¬Near P.A hB i c → chi c = 0)) :
    (∑ c, (y' c - ys c) ^ 2) + 1 / 2 * ∑ c, (y' c - y c) ^ 2 ≤
      (∑ c, (y c - ys c) ^ 2) + (∑ c, chi c * (-2 * ((y c - ys c) - (st.z c - xs c)) * (st.z c - xs c))) +
        1 / 2 * ((∑ c, (st.z c - xs c - P.stepSize * ((P.gi hb st.z i - st.mem i) * P.A.ent i c + chi c * (blockWeight P.A hB c *
          (st.avg c + P.alpha * st.z c - G c)))) ^ 2) - ∑ c, (st.z c - xs c) ^ 2) := by
  classical
  obtain ⟨hs', hr', hnd, hlt, hmem⟩ := hok.row i
  rw [hr] at hr'
  obtain rfl := Option.some.inj hr'
  have hw := listed_lt_width hok hlt hmem
  obtain ⟨u, hu, hup⟩ := hprox _ (supWeights n S.bs) P.stepSize hs v (supWeights_nonneg n S.bs) hstep hnd (fun h hh => ⟨hlt h hh, hw h hh⟩)
  have hux : u = x' := by
    have := hh.prox
    rw [hu] at this
    exact Option.some.inj this
  subst hux
  have hiff := (isProx_listed_iff hB hpen (w := getD0 (supWeights n S.bs : Fin (supWidth S.bs) → ℝ)) (hs := hs)
    (fun h hh => by rw [getD0_lt _ (hw h hh)]; exact supWeights_nonneg n S.bs _) hstep v u).mp hup
  have hblk := (opt_blocks hB hpen (fun c => -s c) xs).mp (fun w => by
    have := hsub w
    have e : dot (fun c => -s c) (w - xs) = -dot s (w - xs) := by
      unfold dot; rw [← Finset.sum_neg_distrib]; exact Finset.sum_congr rfl fun c _ => by ring
    rw [e]; linarith)
  set F : Fin p → ℝ := fun c => chi c * ((v c - u c - P.stepSize * (blockWeight P.A hB c * s c)) * (u c - xs c)) with hF
  have hF0 : 0 ≤ ∑ c, F c := by
    rw [sum_by_block hB]
    refine Finset.sum_nonneg fun h _ => ?_
    by_cases ht : Touches P.A.indptr P.A.indices B.ptr i h
    · have hin : h.val ∈ hs := (hmem h).mpr ht
      have h1 := hiff.2 h hin xs
      have h2 := hblk h u
      set W : ℝ := getD0 (supWeights n S.bs : Fin (supWidth S.bs) → ℝ) h.val with hW
      have hWv : W = (n : ℝ) / (touchCount P.A B.ptr h : ℝ) := by
        have := (hok.weight (K := ℝ) ht).2
        rw [rd_eq_getD0 _ (hw _ hin)] at this
        exact Option.some.inj this
      have hW0 : 0 ≤ W := by rw [hWv]; positivity
      have h3 : (∑ c, if hB.of c = h then F c else 0) = -(∑ c, if hB.of c = h then (v c - u c) * (xs c - u c) else 0) +
          P.stepSize * W * ∑ c, if hB.of c = h then -s c * (u c - xs c) else 0 := by
        rw [Finset.mul_sum, ← Finset.sum_neg_distrib, ← Finset.sum_add_distrib]
        refine Finset.sum_congr rfl fun c _ => ?_
        by_cases hc : hB.of c = h
        · have hn : Near P.A hB i c := by unfold Near; rw [hc]; exact ht
          have hbw : blockWeight P.A hB c = W := by unfold blockWeight; rw [hc, hWv]
          rw [if_pos hc, if_pos hc, if_pos hc, hF]
          simp only [(hchi c).1 hn, hbw]
          ring
        · rw [if_neg hc, if_neg hc, if_neg hc]; ring
      rw [h3]
      have h4 := mul_le_mul_of_nonneg_left h2 (mul_nonneg hstep hW0)
      nlinarith
    · refine le_of_eq (Finset.sum_eq_zero fun c _ => ?_).symm
      by_cases hc : hB.of c = h
      · have hn : ¬Near P.A hB i c := by unfold Near; rw [hc]; exact ht
        rw [if_pos hc, hF]
        simp only [(hchi c).2 hn, zero_mul]
      · rw [if_neg hc]
  have hpt : ∀ c, (y' c - ys c) ^ 2 + 1 / 2 * (y' c - y c) ^ 2 + 2 * F c ≤
      (y c - ys c) ^ 2 + chi c * (-2 * ((y c - ys c) - (st.z c - xs c)) * (st.z c - xs c)) +
        1 / 2 * ((st.z c - xs c - P.stepSize * ((P.gi hb st.z i - st.mem i) * P.A.ent i c + chi c * (blockWeight P.A hB c *
          (st.avg c + P.alpha * st.z c - G c)))) ^ 2 - (st.z c - xs c) ^ 2) := by
    intro c
    by_cases hn : Near P.A hB i c
    · simp only [hF, (hchi c).1 hn, hh.near c hn, hh.ynear c hn, hys c]
      generalize P.gi hb st.z i - st.mem i = e
      generalize blockWeight P.A hB c = w
      nlinarith [sq_nonneg ((st.z c - xs c) - (u c - xs c) - P.stepSize * (e * P.A.ent i c + w * (st.avg c + P.alpha * st.z c - G c)))]
    · have he : P.A.ent i c = 0 := ent_eq_zero fun hx => hn (near_of_stores hB hx)
      simp only [hF, (hchi c).2 hn, hh.yfar c hn, he]
      ring_nf
      exact le_refl _
  have hsum := Finset.sum_le_sum fun c (_ : c ∈ Finset.univ) => hpt c
  simp only [Finset.sum_add_distrib, ← Finset.mul_sum, Finset.sum_sub_distrib] at hsum
  linarith

/-- What `C112` assumes: `xs` minimises the objective of the problem handed to the solver, the losses are convex with `M`-Lipschitz derivatives, the rows have
squared norm at most `R`, the penalties of both block structures are convex, every block of either structure is touched by at least one sample in `D`, and the
step size is at most `1 / (9 M R)` and `1 / (3 alpha D)`; `mu` is a strong convexity constant of the data term at `xs` (zero always is one). -/
structure VrtosRegular (P : VrtosArgs ℝ n p) (hb : n = P.bSize) (pen1 : Fin P.blocks1.nb → (Fin p → ℝ) → ℝ) (pen2 : Fin P.blocks2.nb → (Fin p → ℝ) → ℝ)
    (f : ℝ → ℝ → ℝ) (M R D mu : ℝ) (xs : Fin p → ℝ) : Prop where
  samples : 0 < n
  penalty1 : IsBlockPenalty P.blocks1.ptr pen1
  penalty2 : IsBlockPenalty P.blocks2.ptr pen2
  prox1 : IsBlockProx pen1 P.prox1
  prox2 : IsBlockProx pen2 P.prox2
  deriv : ∀ t b, HasDerivAt (fun s => f s b) (P.deriv t b) t
  mono : ∀ b, Monotone fun t => P.deriv t b
  lip : ∀ s t b, |P.deriv s b - P.deriv t b| ≤ M * |s - t|
  rows : ∀ i, ∑ c : Fin p, P.A.ent i c ^ 2 ≤ R
  touched1 : ∀ h, ∃ i, Touches P.A.indptr P.A.indices P.blocks1.ptr i h
  touched2 : ∀ h, ∃ i, Touches P.A.indptr P.A.indices P.blocks2.ptr i h
  often1 : ∀ h (T : Finset (Fin n)), (∀ i, i ∈ T ↔ Touches P.A.indptr P.A.indices P.blocks1.ptr i h) → (n : ℝ) ≤ D * T.card
  often2 : ∀ h (T : Finset (Fin n)), (∀ i, i ∈ T ↔ Touches P.A.indptr P.A.indices P.blocks2.ptr i h) → (n : ℝ) ≤ D * T.card
  alpha : 0 ≤ P.alpha
  opt : ∀ y, finiteSum (fun i (c : Fin p) => P.A.ent i c) (fun i => P.b (i.cast hb)) f P.alpha xs + ((∑ h, pen1 h xs) + ∑ h, pen2 h xs) ≤
      finiteSum (fun i (c : Fin p) => P.A.ent i c) (fun i => P.b (i.cast hb)) f P.alpha y + ((∑ h, pen1 h y) + ∑ h, pen2 h y)
  strong : ∀ y, mu * sqDist y xs ≤ (∑ i, (P.deriv (∑ c : Fin p, P.A.ent i c * y c) (P.b (i.cast hb)) -
      P.deriv (∑ c : Fin p, P.A.ent i c * xs c) (P.b (i.cast hb))) * ∑ c : Fin p, P.A.ent i c * (y c - xs c)) / n
  step_pos : 0 < P.stepSize
  step_lip : 9 * P.stepSize * (M * R) ≤ 1
  step_alpha : 3 * P.stepSize * (P.alpha * D) ≤ 1

/-- The subgradients of the two penalties that make `xs` optimal. -/
structure VrtosDual (P : VrtosArgs ℝ n p) (hb : n = P.bSize) (pen1 : Fin P.blocks1.nb → (Fin p → ℝ) → ℝ) (pen2 : Fin P.blocks2.nb → (Fin p → ℝ) → ℝ)
    (xs s1 s2 : Fin p → ℝ) : Prop where
  sub1 : ∀ w, (∑ h, pen1 h xs) + dot s1 (w - xs) ≤ ∑ h, pen1 h w
  sub2 : ∀ w, (∑ h, pen2 h xs) + dot s2 (w - xs) ≤ ∑ h, pen2 h w
  sum : ∀ c, s1 c + s2 c = -finiteSumGrad (fun i (c : Fin p) => P.A.ent i c) (fun i => P.b (i.cast hb)) P.deriv P.alpha xs c

theorem VrtosRegular.dual {P : VrtosArgs ℝ n p} {hb : n = P.bSize} {pen1 : Fin P.blocks1.nb → (Fin p → ℝ) → ℝ} {pen2 : Fin P.blocks2.nb → (Fin p → ℝ) → ℝ}
    {f : ℝ → ℝ → ℝ} {M R D mu : ℝ} {xs : Fin p → ℝ} (h : VrtosRegular P hb pen1 pen2 f M R D mu xs) : ∃ s1 s2, VrtosDual P hb pen1 pen2 xs s1 s2 := by
  have c1 : ∀ x y : Fin p → ℝ, ∀ t : ℝ, 0 ≤ t → t ≤ 1 → ∑ h, pen1 h ((1 - t) • x + t • y) ≤ (1 - t) * ∑ h, pen1 h x + t * ∑ h, pen1 h y := by
    intro x y t h0 h1
    rw [Finset.mul_sum, Finset.mul_sum, ← Finset.sum_add_distrib]
    exact Finset.sum_le_sum fun k _ => h.penalty1.conv k x y t h0 h1
  have c2 : ∀ x y : Fin p → ℝ, ∀ t : ℝ, 0 ≤ t → t ≤ 1 → ∑ h, pen2 h ((1 - t) • x + t • y) ≤ (1 - t) * ∑ h, pen2 h x + t * ∑ h, pen2 h y := by
    intro x y t h0 h1
    rw [Finset.mul_sum, Finset.mul_sum, ← Finset.sum_add_distrib]
    exact Finset.sum_le_sum fun k _ => h.penalty2.conv k x y t h0 h1
  have ho := opt_of_min (fun i (c : Fin p) => P.A.ent i c) (fun i => P.b (i.cast hb)) f P.deriv h.deriv P.alpha
    (fun y => (∑ h, pen1 h y) + ∑ h, pen2 h y) (fun x y t h0 h1 => by nlinarith [c1 x y t h0 h1, c2 x y t h0 h1]) xs h.opt
  obtain ⟨s, t, e1, e2, e3⟩ := subgrad_split (φ := fun y => ∑ h, pen1 h y) (ψ := fun y => ∑ h, pen2 h y) c1 c2 _ xs ho
  exact ⟨s, t, e2, e3, e1⟩

/-- The value of `Y[0]` (or `Y[1]`) at the solution: `xs - step d (∇f/2 + s)`. -/
noncomputable def vrtosTarget {B : BlockMat} (P : VrtosArgs ℝ n p) (hb : n = P.bSize) (hB : GoodBlocks B p) (xs s : Fin p → ℝ) : Fin p → ℝ := fun c =>
  xs c - P.stepSize * (blockWeight P.A hB c * (finiteSumGrad (fun i (c : Fin p) => P.A.ent i c) (fun i => P.b (i.cast hb)) P.deriv P.alpha xs c / 2 + s c))

/-- How far `z` is from the weighted mean of the two rows of `Y`; zero on every feature that has been touched. -/
noncomputable def vrtosGap (P : VrtosArgs ℝ n p) (hP : P.Good) (st : VrtosState ℝ n p) (c : Fin p) : ℝ :=
  (st.y1 c - st.z c) / blockWeight P.A hP.blocks1 c + (st.y2 c - st.z c) / blockWeight P.A hP.blocks2 c

/-- Squared distance of the memory table to the derivatives at `xs`, weighted by the rows. -/
noncomputable def vrtosMemDist (P : VrtosArgs ℝ n p) (hb : n = P.bSize) (xs : Fin p → ℝ) (st : VrtosState ℝ n p) : ℝ :=
  ∑ i, (st.mem i - P.gi hb xs i) ^ 2 * ∑ c : Fin p, P.A.ent i c ^ 2

/-- The Lyapunov function. -/
noncomputable def vrtosLyap (P : VrtosArgs ℝ n p) (hP : P.Good) (D : ℝ) (xs s1 s2 : Fin p → ℝ) (st : VrtosState ℝ n p) : ℝ :=
  sqDist st.y1 (vrtosTarget P hP.size hP.blocks1 xs s1) + sqDist st.y2 (vrtosTarget P hP.size hP.blocks2 xs s2) +
    6 * P.stepSize ^ 2 * vrtosMemDist P hP.size xs st + 2 * D * ∑ c, |st.z c - xs c| * |vrtosGap P hP st c|

theorem vrtosLyap_nonneg (P : VrtosArgs ℝ n p) (hP : P.Good) {D : ℝ} (hD : 0 ≤ D) (xs s1 s2 : Fin p → ℝ) (st : VrtosState ℝ n p) :
    0 ≤ vrtosLyap P hP D xs s1 s2 st := by
  unfold vrtosLyap vrtosMemDist sqDist
  have h1 : ∀ i, 0 ≤ (st.mem i - P.gi hP.size xs i) ^ 2 * ∑ c : Fin p, P.A.ent i c ^ 2 := fun i =>
    mul_nonneg (sq_nonneg _) (Finset.sum_nonneg fun c _ => sq_nonneg _)
  have h2 := Finset.sum_nonneg fun i (_ : i ∈ Finset.univ) => h1 i
  have h3 : 0 ≤ ∑ c, |st.z c - xs c| * |vrtosGap P hP st c| := Finset.sum_nonneg fun c _ => by positivity
  positivity

theorem vrtos_arith {n X J Rs Rj E H Q N M R D alpha step : ℝ} (hn : 0 < n) (hstep : 0 < step) (halpha : 0 ≤ alpha) (hE : 0 ≤ E) (hN : 0 ≤ N)
    (hQN : Q ≤ M * R * N) (hs1 : 9 * step * (M * R) ≤ 1) (hs2 : 3 * step * (alpha * D) ≤ 1) {Y : ℝ}
    (hX : X + 1 / 2 * Rs ≤ n * Y + Rj - 2 * step * (N + n * (alpha * E)) + 3 * step ^ 2 * (Q + H + n * (D * (alpha ^ 2 * E)))) {J' : ℝ} (hJ : J' ≤ n * J - Rj) :
    X + 6 * step ^ 2 * ((n - 1) * H + Q) + J' + 1 / 2 * Rs + step * (N + n * (alpha * E)) + 3 * step ^ 2 * H ≤ (Y + 6 * step ^ 2 * H + J) * n := by
  have k1 : 3 * step ^ 2 * (n * (D * (alpha ^ 2 * E))) ≤ step * (n * (alpha * E)) := by
    have : 0 ≤ step * (n * (alpha * E)) := by positivity
    nlinarith [mul_le_mul_of_nonneg_right hs2 this]
  have k2 : 9 * step ^ 2 * Q ≤ step * N := by
    have h1 : 9 * step ^ 2 * Q ≤ 9 * step ^ 2 * (M * R * N) := mul_le_mul_of_nonneg_left hQN (by positivity)
    have h2 := mul_le_mul_of_nonneg_right hs1 (mul_nonneg hstep.le hN)
    nlinarith
  nlinarith

/-- The mean over all samples of the Lyapunov function after one inner iteration. -/
theorem vrtos_mean_step (P : VrtosArgs ℝ n p) (hP : P.Good) (S1 : Support n P.blocks1.nb) (S2 : Support n P.blocks2.nb) (hS1 : P.support1 = some S1)
    (hS2 : P.support2 = some S2) (pen1 : Fin P.blocks1.nb → (Fin p → ℝ) → ℝ) (pen2 : Fin P.blocks2.nb → (Fin p → ℝ) → ℝ) (f : ℝ → ℝ → ℝ) (M R D mu : ℝ)
    (xs s1 s2 : Fin p → ℝ) (hreg : VrtosRegular P hP.size pen1 pen2 f M R D mu xs) (hdual : VrtosDual P hP.size pen1 pen2 xs s1 s2)
    (st : VrtosState ℝ n p) (havg : ∀ c : Fin p, st.avg c = (∑ i, st.mem i * P.A.ent i c) / (n : ℝ)) (htmp : ∀ c, st.tmp c = 0) :
    ∃ s : Fin n → VrtosState ℝ n p, (∀ i : Fin n, vrtosStep P S1 S2 st i = some (s i)) ∧
      (∀ i (c : Fin p), (s i).avg c = (∑ j, (s i).mem j * P.A.ent j c) / (n : ℝ)) ∧ (∀ i c, (s i).tmp c = 0) ∧
      (∑ i, vrtosLyap P hP D xs s1 s2 (s i)) / n + 1 / 2 * ((∑ i, (sqDist (s i).y1 st.y1 + sqDist (s i).y2 st.y2)) / n) +
        P.stepSize * ((∑ i, (P.gi hP.size st.z i - P.gi hP.size xs i) * ∑ c : Fin p, P.A.ent i c * (st.z c - xs c)) / n + P.alpha * sqDist st.z xs) ≤
        vrtosLyap P hP D xs s1 s2 st := by
  classical
  obtain ⟨hn0, hpen1, hpen2, hprox1, hprox2, hf, hmono, hM, hR, hall1, hall2, hD1, hD2, halpha, hmin, hmu, hstep, hq1, hq2⟩ := hreg
  obtain ⟨S', hS', hok1⟩ := hP.support1
  rw [hS1] at hS'
  obtain rfl := Option.some.inj hS'
  obtain ⟨S', hS', hok2⟩ := hP.support2
  rw [hS2] at hS'
  obtain rfl := Option.some.inj hS'
  have hn : (0 : ℝ) < n := by exact_mod_cast hn0
  have hcov : ∀ i, Covered P i := fun i c h1 h2 _ _ _ => by
    obtain ⟨i1, e1⟩ := hall1 h1
    obtain ⟨i2, e2⟩ := hall2 h2
    exact ⟨⟨i1, h1, e1, le_refl _⟩, i2, h2, e2, le_refl _⟩
  have tot : ∀ {nb : ℕ} {pen : Fin nb → (Fin p → ℝ) → ℝ} {prox : SparseProx ℝ p}, IsBlockProx pen prox → TotalProx nb prox := by
    intro nb pen prox h m d step hs v h1 h2 h3 h4
    obtain ⟨u, hu, -⟩ := h m d step hs v h1 h2 h3 h4
    exact ⟨u, hu⟩
  have hsome := fun i => vrtosStep_some P hP hok1 hok2 hstep.le (tot hprox1) (tot hprox2) i (hcov i) st
  choose s hs using hsome
  have hsp := fun i => vrtosStep_spec P hP hok1 hok2 st (s i) (funext htmp) i (hs i)
  have hmem : ∀ i, (s i).mem = Function.update st.mem i (P.gi hP.size st.z i) := by
    intro i; obtain ⟨-, -, -, -, -, -, -, -, -, -, e1, -, -⟩ := hsp i; exact e1
  have havg' : ∀ i (c : Fin p), (s i).avg c = st.avg c + (P.gi hP.size st.z i - st.mem i) * P.A.ent i c / n := by
    intro i; obtain ⟨-, -, -, -, -, -, -, -, -, -, -, e1, -⟩ := hsp i; exact e1
  refine ⟨s, hs, fun i c => ?_, fun i c => ?_, ?_⟩
  · rw [havg', havg, hmem, ← add_div]
    congr 1
    rw [eq_comm, ← sub_eq_iff_eq_add', ← Finset.sum_sub_distrib, Finset.sum_eq_single i]
    · rw [Function.update_self]; ring
    · intro j _ hj
      rw [Function.update_of_ne hj]; ring
    · simp
  · obtain ⟨-, -, -, -, -, -, -, -, -, -, -, -, e1⟩ := hsp i
    rw [e1]
  set G := finiteSumGrad (fun i (c : Fin p) => P.A.ent i c) (fun i => P.b (i.cast hP.size)) P.deriv P.alpha xs with hG
  set gs : Fin n → ℝ := fun i => P.gi hP.size xs i with hgs
  set w1 : Fin p → ℝ := blockWeight P.A hP.blocks1 with hw1
  set w2 : Fin p → ℝ := blockWeight P.A hP.blocks2 with hw2
  set chi1 : Fin n → Fin p → ℝ := fun i c => if Near P.A hP.blocks1 i c then 1 else 0 with hchi1
  set chi2 : Fin n → Fin p → ℝ := fun i c => if Near P.A hP.blocks2 i c then 1 else 0 with hchi2
  set e : Fin p → ℝ := fun c => st.z c - xs c with hedef
  set dl : Fin p → ℝ := fun c => st.avg c - (∑ i, gs i * P.A.ent i c) / n with hdldef
  set A : Fin n → ℝ := fun i => P.gi hP.size st.z i - gs i with hAdef
  set B : Fin n → ℝ := fun i => st.mem i - gs i with hBdef
  set Y1 := vrtosTarget P hP.size hP.blocks1 xs s1 with hY1
  set Y2 := vrtosTarget P hP.size hP.blocks2 xs s2 with hY2
  have wpos1 : ∀ c, 0 < w1 c := fun c => by
    obtain ⟨i, hi⟩ := hall1 (hP.blocks1.of c)
    exact blockWeight_pos hP.blocks1 hok1 (i := i) hi
  have wpos2 : ∀ c, 0 < w2 c := fun c => by
    obtain ⟨i, hi⟩ := hall2 (hP.blocks2.of c)
    exact blockWeight_pos hP.blocks2 hok2 (i := i) hi
  have wle1 : ∀ c, w1 c ≤ D := fun c => by
    have h1 := hD1 (hP.blocks1.of c) (Finset.univ.filter fun i => Near P.A hP.blocks1 i c) (fun i => by simp)
    simp only [hw1, blockWeight]
    obtain ⟨i, hi⟩ := hall1 (hP.blocks1.of c)
    have hpos : 0 < touchCount P.A P.blocks1.ptr (hP.blocks1.of c) := by
      unfold touchCount
      exact Finset.card_pos.mpr ⟨i, by simpa using hi⟩
    rw [div_le_iff₀ (by exact_mod_cast hpos)]
    refine h1.trans (le_of_eq ?_)
    unfold touchCount
    congr
  have wle2 : ∀ c, w2 c ≤ D := fun c => by
    have h1 := hD2 (hP.blocks2.of c) (Finset.univ.filter fun i => Near P.A hP.blocks2 i c) (fun i => by simp)
    simp only [hw2, blockWeight]
    obtain ⟨i, hi⟩ := hall2 (hP.blocks2.of c)
    have hpos : 0 < touchCount P.A P.blocks2.ptr (hP.blocks2.of c) := by
      unfold touchCount
      exact Finset.card_pos.mpr ⟨i, by simpa using hi⟩
    rw [div_le_iff₀ (by exact_mod_cast hpos)]
    refine h1.trans (le_of_eq ?_)
    unfold touchCount
    congr
  have csum1 : ∀ c, ∑ i, chi1 i c * w1 c = n := fun c => by
    have := sum_near_weight P.A hP.blocks1 c (hall1 (hP.blocks1.of c)) (1 : ℝ)
    simp only [mul_one] at this
    refine Eq.trans ?_ this
    refine Finset.sum_congr rfl fun i _ => ?_
    simp only [hchi1, hw1]
    split_ifs <;> ring
  have csum2 : ∀ c, ∑ i, chi2 i c * w2 c = n := fun c => by
    have := sum_near_weight P.A hP.blocks2 c (hall2 (hP.blocks2.of c)) (1 : ℝ)
    simp only [mul_one] at this
    refine Eq.trans ?_ this
    refine Finset.sum_congr rfl fun i _ => ?_
    simp only [hchi2, hw2]
    split_ifs <;> ring
  have cs1 : ∀ c, ∑ i, chi1 i c = n / w1 c := fun c => by
    rw [eq_div_iff (wpos1 c).ne', Finset.sum_mul, csum1]
  have cs2 : ∀ c, ∑ i, chi2 i c = n / w2 c := fun c => by
    rw [eq_div_iff (wpos2 c).ne', Finset.sum_mul, csum2]
  have hdl : ∀ c : Fin p, ∑ i, B i * P.A.ent i c = n * dl c := fun c => by
    simp only [hdldef, hBdef, sub_mul, Finset.sum_sub_distrib]
    rw [havg c]; field_simp
  have hGc : ∀ c, st.avg c + P.alpha * st.z c - G c = dl c + P.alpha * e c := fun c => by
    simp only [hG, finiteSumGrad, hdldef, hedef, hgs, VrtosArgs.gi, VrtosArgs.target]
    ring
  -- the two halves
  have d1 : ∀ i, sqDist (s i).y1 Y1 + 1 / 2 * sqDist (s i).y1 st.y1 ≤ sqDist st.y1 Y1 + (∑ c, chi1 i c * (-2 * ((st.y1 c - Y1 c) - e c) * e c)) +
      1 / 2 * ((∑ c, (e c - P.stepSize * ((A i - B i) * P.A.ent i c + chi1 i c * (w1 c * (dl c + P.alpha * e c)))) ^ 2) - ∑ c, e c ^ 2) := by
    intro i
    obtain ⟨hs1, hs2, v1, v2, r1, r2, a1, a2, -⟩ := hsp i
    have := half_descent hP.blocks1 hok1 hpen1 hprox1 hstep.le r1 a1 s1 G xs Y1 hdual.sub1 (fun c => rfl) (chi1 i)
      (fun c => ⟨fun h => by simp only [hchi1, if_pos h], fun h => by simp only [hchi1, if_neg h]⟩)
    simp only [hGc] at this
    unfold sqDist
    refine this.trans (le_of_eq ?_)
    simp only [hAdef, hBdef, sub_sub_sub_cancel_right]
    rfl
  have d2 : ∀ i, sqDist (s i).y2 Y2 + 1 / 2 * sqDist (s i).y2 st.y2 ≤ sqDist st.y2 Y2 + (∑ c, chi2 i c * (-2 * ((st.y2 c - Y2 c) - e c) * e c)) +
      1 / 2 * ((∑ c, (e c - P.stepSize * ((A i - B i) * P.A.ent i c + chi2 i c * (w2 c * (dl c + P.alpha * e c)))) ^ 2) - ∑ c, e c ^ 2) := by
    intro i
    obtain ⟨hs1, hs2, v1, v2, r1, r2, a1, a2, -⟩ := hsp i
    have := half_descent hP.blocks2 hok2 hpen2 hprox2 hstep.le r2 a2 s2 G xs Y2 hdual.sub2 (fun c => rfl) (chi2 i)
      (fun c => ⟨fun h => by simp only [hchi2, if_pos h], fun h => by simp only [hchi2, if_neg h]⟩)
    simp only [hGc] at this
    unfold sqDist
    refine this.trans (le_of_eq ?_)
    simp only [hAdef, hBdef, sub_sub_sub_cancel_right]
    rfl
  have m1 := saga_sum (fun i (c : Fin p) => P.A.ent i c) chi1 (fun i c => by simp only [hchi1]; split <;> simp)
    (fun i c => by
      simp only [hchi1]
      split_ifs with hc
      · ring
      · rw [ent_eq_zero fun hh => hc (near_of_stores hP.blocks1 hh)]; ring)
    w1 (fun c => (wpos1 c).le) D wle1 csum1 A B e dl P.alpha P.stepSize hdl
  have m2 := saga_sum (fun i (c : Fin p) => P.A.ent i c) chi2 (fun i c => by simp only [hchi2]; split <;> simp)
    (fun i c => by
      simp only [hchi2]
      split_ifs with hc
      · ring
      · rw [ent_eq_zero fun hh => hc (near_of_stores hP.blocks2 hh)]; ring)
    w2 (fun c => (wpos2 c).le) D wle2 csum2 A B e dl P.alpha P.stepSize hdl
  have hR0 : 0 ≤ R := (Finset.sum_nonneg fun c _ => sq_nonneg _).trans (hR ⟨0, hn0⟩)
  set q : Fin n → ℝ := fun i => ∑ c : Fin p, P.A.ent i c ^ 2 with hqdef
  have hq0 : ∀ i, 0 ≤ q i := fun i => Finset.sum_nonneg fun c _ => sq_nonneg _
  set N : ℝ := ∑ i, A i * ∑ c : Fin p, P.A.ent i c * e c with hN
  set H : ℝ := ∑ i, B i ^ 2 * q i with hH
  set Q : ℝ := ∑ i, A i ^ 2 * q i with hQ
  set E : ℝ := ∑ c, e c ^ 2 with hE
  have hH0 : 0 ≤ H := Finset.sum_nonneg fun i _ => mul_nonneg (sq_nonneg _) (hq0 i)
  have hE0 : 0 ≤ E := Finset.sum_nonneg fun c _ => sq_nonneg _
  -- the memory part
  have hmemsum : ∑ i, vrtosMemDist P hP.size xs (s i) = (n - 1) * H + Q := by
    have h1 : ∀ i, vrtosMemDist P hP.size xs (s i) = H + (A i ^ 2 * q i - B i ^ 2 * q i) := by
      intro i
      unfold vrtosMemDist
      rw [hH, ← sub_eq_iff_eq_add', ← Finset.sum_sub_distrib, Finset.sum_eq_single i]
      · rw [hmem, Function.update_self]
      · intro j _ hj
        rw [hmem, Function.update_of_ne hj]; simp [hBdef, hgs, hqdef]
      · simp
    simp only [h1, Finset.sum_add_distrib, Finset.sum_sub_distrib, Finset.sum_const, Finset.card_univ, Fintype.card_fin, nsmul_eq_mul]
    rw [← hH, ← hQ]; ring
  -- cocoercivity of the scalar losses
  have hco : ∀ i, A i ^ 2 ≤ M * (A i * ∑ c : Fin p, P.A.ent i c * e c) ∧ 0 ≤ A i * ∑ c : Fin p, P.A.ent i c * e c := by
    intro i
    have ht : ∑ c : Fin p, P.A.ent i c * e c = ∑ c : Fin p, P.A.ent i c * st.z c - ∑ c : Fin p, P.A.ent i c * xs c := by
      rw [← Finset.sum_sub_distrib]; exact Finset.sum_congr rfl fun c _ => by simp only [hedef]; ring
    have hA : A i = P.deriv (∑ c : Fin p, P.A.ent i c * st.z c) (P.target hP.size i) - P.deriv (∑ c : Fin p, P.A.ent i c * xs c) (P.target hP.size i) := rfl
    rw [ht, hA]
    exact scalar_coco (hmono (P.target hP.size i)) (fun a b => hM a b (P.target hP.size i)) _ _
  have hN0 : 0 ≤ N := Finset.sum_nonneg fun i _ => (hco i).2
  have hQN : Q ≤ M * R * N := by
    rw [hQ, hN, Finset.mul_sum]
    refine Finset.sum_le_sum fun i _ => ?_
    calc A i ^ 2 * q i ≤ A i ^ 2 * R := mul_le_mul_of_nonneg_left (hR i) (sq_nonneg _)
      _ ≤ (M * (A i * ∑ c : Fin p, P.A.ent i c * e c)) * R := mul_le_mul_of_nonneg_right (hco i).1 hR0
      _ = _ := by ring
  -- the cross terms
  set gap : Fin p → ℝ := fun c => vrtosGap P hP st c with hgap
  have hcross : (∑ i, ∑ c, chi1 i c * (-2 * ((st.y1 c - Y1 c) - e c) * e c)) + (∑ i, ∑ c, chi2 i c * (-2 * ((st.y2 c - Y2 c) - e c) * e c)) ≤
      2 * n * ∑ c, |e c| * |gap c| := by
    have b1 : ∑ i, ∑ c, chi1 i c * (-2 * ((st.y1 c - Y1 c) - e c) * e c) = ∑ c, ∑ i, chi1 i c * (-2 * ((st.y1 c - Y1 c) - e c) * e c) := Finset.sum_comm
    have b2 : ∑ i, ∑ c, chi2 i c * (-2 * ((st.y2 c - Y2 c) - e c) * e c) = ∑ c, ∑ i, chi2 i c * (-2 * ((st.y2 c - Y2 c) - e c) * e c) := Finset.sum_comm
    rw [b1, b2, ← Finset.sum_add_distrib, Finset.mul_sum]
    refine Finset.sum_le_sum fun c _ => ?_
    rw [← Finset.sum_mul, ← Finset.sum_mul, cs1, cs2]
    have p1 := (wpos1 c).ne'
    have p2 := (wpos2 c).ne'
    have hY : (Y1 c - xs c) / w1 c + (Y2 c - xs c) / w2 c = 0 := by
      have h3 := hdual.sum c
      rw [← hG] at h3
      have a1 : Y1 c - xs c = -(P.stepSize * (w1 c * (G c / 2 + s1 c))) := by simp only [hY1, vrtosTarget]; ring
      have a2 : Y2 c - xs c = -(P.stepSize * (w2 c * (G c / 2 + s2 c))) := by simp only [hY2, vrtosTarget]; ring
      rw [a1, a2]
      field_simp
      linear_combination (-P.stepSize * 2) * h3
    have hgc : gap c = (st.y1 c - Y1 c - e c) / w1 c + (st.y2 c - Y2 c - e c) / w2 c := by
      simp only [hgap, vrtosGap, hedef]
      rw [← hw1, ← hw2]
      have : (st.y1 c - st.z c) / w1 c + (st.y2 c - st.z c) / w2 c - ((st.y1 c - Y1 c - (st.z c - xs c)) / w1 c + (st.y2 c - Y2 c - (st.z c - xs c)) / w2 c) =
          (Y1 c - xs c) / w1 c + (Y2 c - xs c) / w2 c := by ring
      linarith
    have hval : n / w1 c * (-2 * (st.y1 c - Y1 c - e c) * e c) + n / w2 c * (-2 * (st.y2 c - Y2 c - e c) * e c) = 2 * n * (-(e c * gap c)) := by
      rw [hgc]; ring
    rw [hval]
    refine mul_le_mul_of_nonneg_left ?_ (by positivity)
    rw [← abs_mul]
    exact neg_le_abs (e c * gap c)
  -- the gap after the step
  have hgapsum : ∑ i, 2 * D * ∑ c, |(s i).z c - xs c| * |vrtosGap P hP (s i) c| ≤ n * (2 * D * ∑ c, |e c| * |gap c|) - 2 * n * ∑ c, |e c| * |gap c| := by
    have h1 : ∀ i c, |(s i).z c - xs c| * |vrtosGap P hP (s i) c| ≤ (1 - chi1 i c) * (|e c| * |gap c|) := by
      intro i c
      obtain ⟨hs1, hs2, v1, v2, r1, r2, a1, a2, hz, -⟩ := hsp i
      have hzc := hz c
      by_cases hc : Near P.A hP.blocks1 i c ∨ Near P.A hP.blocks2 i c
      · obtain ⟨j1, hj1⟩ := hall1 (hP.blocks1.of c)
        obtain ⟨j2, hj2⟩ := hall2 (hP.blocks2.of c)
        rw [if_pos hc, (hok1.getD0_weight (i := j1) hj1).2, (hok2.getD0_weight (i := j2) hj2).2, ← hw1, ← hw2] at hzc
        have p1 := wpos1 c
        have p2 := wpos2 c
        have hg : vrtosGap P hP (s i) c = 0 := by
          unfold vrtosGap
          rw [← hw1, ← hw2, hzc]
          field_simp
          ring
        rw [hg, abs_zero, mul_zero]
        refine mul_nonneg ?_ (by positivity)
        simp only [hchi1]; split_ifs <;> norm_num
      · rw [not_or] at hc
        rw [if_neg (by tauto)] at hzc
        have hg : vrtosGap P hP (s i) c = gap c := by
          simp only [hgap]
          unfold vrtosGap
          rw [a1.yfar c hc.1, a2.yfar c hc.2, hzc]
        rw [hg, hzc]
        simp only [hchi1, if_neg hc.1, sub_zero, one_mul]
        exact le_refl _
    have hDn : 0 ≤ D ∨ p = 0 := by
      rcases Nat.eq_zero_or_pos p with h | h
      · exact Or.inr h
      · exact Or.inl ((wpos1 ⟨0, h⟩).le.trans (wle1 _))
    rcases hDn with hD0 | hp0
    · rw [← Finset.mul_sum, Finset.sum_comm]
      have h2 : ∀ c, ∑ i, |(s i).z c - xs c| * |vrtosGap P hP (s i) c| ≤ (n - n / w1 c) * (|e c| * |gap c|) := by
        intro c
        refine (Finset.sum_le_sum fun i _ => h1 i c).trans (le_of_eq ?_)
        rw [← Finset.sum_mul, Finset.sum_sub_distrib, cs1]
        simp
      have h3 : ∀ c, 2 * D * ((n - n / w1 c) * (|e c| * |gap c|)) ≤ n * (2 * D * (|e c| * |gap c|)) - 2 * n * (|e c| * |gap c|) := by
        intro c
        have h4 : 1 ≤ D / w1 c := by rw [le_div_iff₀ (wpos1 c), one_mul]; exact wle1 c
        have h5 : 0 ≤ n * (|e c| * |gap c|) := by positivity
        have h6 := mul_le_mul_of_nonneg_right h4 h5
        have h7 : 2 * D * ((n - n / w1 c) * (|e c| * |gap c|)) = n * (2 * D * (|e c| * |gap c|)) - 2 * (D / w1 c * (n * (|e c| * |gap c|))) := by ring
        rw [h7]; linarith
      calc 2 * D * ∑ c, ∑ i, |(s i).z c - xs c| * |vrtosGap P hP (s i) c| ≤ 2 * D * ∑ c, (n - n / w1 c) * (|e c| * |gap c|) :=
            mul_le_mul_of_nonneg_left (Finset.sum_le_sum fun c _ => h2 c) (by positivity)
        _ = ∑ c, 2 * D * ((n - n / w1 c) * (|e c| * |gap c|)) := by rw [Finset.mul_sum]
        _ ≤ ∑ c, (n * (2 * D * (|e c| * |gap c|)) - 2 * n * (|e c| * |gap c|)) := Finset.sum_le_sum fun c _ => h3 c
        _ = _ := by rw [Finset.sum_sub_distrib, ← Finset.mul_sum, ← Finset.mul_sum, ← Finset.mul_sum]
    · subst hp0
      simp
  -- put together
  have hX : (∑ i, (sqDist (s i).y1 Y1 + sqDist (s i).y2 Y2)) + 1 / 2 * ∑ i, (sqDist (s i).y1 st.y1 + sqDist (s i).y2 st.y2) ≤
      n * (sqDist st.y1 Y1 + sqDist st.y2 Y2) + 2 * n * (∑ c, |e c| * |gap c|) - 2 * P.stepSize * (N + n * (P.alpha * E)) +
        3 * P.stepSize ^ 2 * (Q + H + n * (D * (P.alpha ^ 2 * E))) := by
    have t1 := Finset.sum_le_sum fun i (_ : i ∈ Finset.univ) => d1 i
    have t2 := Finset.sum_le_sum fun i (_ : i ∈ Finset.univ) => d2 i
    simp only [Finset.sum_add_distrib, ← Finset.mul_sum, Finset.sum_sub_distrib, Finset.sum_const, Finset.card_univ, Fintype.card_fin, nsmul_eq_mul] at t1 t2 ⊢
    linarith
  have hV : ∑ i, vrtosLyap P hP D xs s1 s2 (s i) = (∑ i, (sqDist (s i).y1 Y1 + sqDist (s i).y2 Y2)) + 6 * P.stepSize ^ 2 * ((n - 1) * H + Q) +
      ∑ i, 2 * D * ∑ c, |(s i).z c - xs c| * |vrtosGap P hP (s i) c| := by
    unfold vrtosLyap
    rw [Finset.sum_add_distrib, Finset.sum_add_distrib, ← Finset.mul_sum, hmemsum]
  have hV0 : vrtosLyap P hP D xs s1 s2 st = (sqDist st.y1 Y1 + sqDist st.y2 Y2) + 6 * P.stepSize ^ 2 * H + 2 * D * ∑ c, |e c| * |gap c| := rfl
  have hfin := vrtos_arith hn hstep halpha hE0 hN0 hQN hq1 hq2 hX hgapsum
  rw [← hV, ← hV0] at hfin
  have hEs : sqDist st.z xs = E := rfl
  rw [hEs]
  have hH3 : 0 ≤ 3 * P.stepSize ^ 2 * H := mul_nonneg (by positivity) hH0
  have key : (∑ i, vrtosLyap P hP D xs s1 s2 (s i)) / n + 1 / 2 * ((∑ i, (sqDist (s i).y1 st.y1 + sqDist (s i).y2 st.y2)) / n) +
      P.stepSize * (N / n + P.alpha * E) = (∑ i, vrtosLyap P hP D xs s1 s2 (s i) + 1 / 2 * (∑ i, (sqDist (s i).y1 st.y1 + sqDist (s i).y2 st.y2)) +
      P.stepSize * (N + n * (P.alpha * E))) / n := by
    field_simp
  rw [key, div_le_iff₀ hn]
  linarith

/-! ### Means over sequences of samples -/

theorem uniformMean_succ (T : ℕ) (φ : (Fin (T + 1) → Fin n) → ℝ) :
    uniformMean φ = uniformMean fun js : Fin T → Fin n => (∑ i, φ (Fin.snoc (α := fun _ => Fin n) js i)) / n := by
  unfold uniformMean
  have h1 : ∑ js : Fin (T + 1) → Fin n, φ js = ∑ js : Fin T → Fin n, ∑ i, φ (Fin.snoc (α := fun _ => Fin n) js i) := by
    rw [← (Fin.snocEquiv fun _ : Fin (T + 1) => Fin n).sum_comp, Fintype.sum_prod_type, Finset.sum_comm]
    rfl
  rw [h1, ← Finset.sum_div, pow_succ, div_div, mul_comm]

theorem uniformMean_mono {T : ℕ} {φ ψ : (Fin T → Fin n) → ℝ} (h : ∀ js, φ js ≤ ψ js) : uniformMean φ ≤ uniformMean ψ :=
  div_le_div_of_nonneg_right (Finset.sum_le_sum fun js _ => h js) (by positivity)

theorem uniformMean_add {T : ℕ} (φ ψ : (Fin T → Fin n) → ℝ) : uniformMean (fun js => φ js + ψ js) = uniformMean φ + uniformMean ψ := by
  unfold uniformMean; rw [Finset.sum_add_distrib, add_div]

theorem uniformMean_mul {T : ℕ} (a : ℝ) (φ : (Fin T → Fin n) → ℝ) : uniformMean (fun js => a * φ js) = a * uniformMean φ := by
  unfold uniformMean; rw [← Finset.mul_sum, mul_div_assoc]

theorem uniformMean_nonneg {T : ℕ} {φ : (Fin T → Fin n) → ℝ} (h : ∀ js, 0 ≤ φ js) : 0 ≤ uniformMean φ :=
  div_nonneg (Finset.sum_nonneg fun js _ => h js) (by positivity)

/-- A supermartingale with costs: the costs of all steps add up to at most the initial value. -/
theorem mean_telescope {V c : List (Fin n) → ℝ} (h : ∀ l, (∑ i, V (l ++ [i])) / n + c l ≤ V l) (T : ℕ) :
    uniformMean (fun js : Fin T → Fin n => V (List.ofFn js)) + ∑ t ∈ Finset.range T, uniformMean (fun js : Fin t → Fin n => c (List.ofFn js)) ≤ V [] := by
  induction T with
  | zero => simp [uniformMean]
  | succ T ih =>
    rw [uniformMean_succ, Finset.sum_range_succ]
    have h1 := uniformMean_mono fun js : Fin T → Fin n => h (List.ofFn js)
    rw [uniformMean_add] at h1
    have h2 : (fun js : Fin T → Fin n => (∑ i, V (List.ofFn (Fin.snoc (α := fun _ => Fin n) js i))) / n) =
        fun js => (∑ i, V (List.ofFn js ++ [i])) / n := by
      funext js
      congr 1
      refine Finset.sum_congr rfl fun i _ => ?_
      congr 1
      rw [List.ofFn_succ', List.concat_eq_append]
      simp
    rw [h2]
    linarith

/-- The state after the samples `pre` followed by `l`. -/
noncomputable def vrtosAfter (P : VrtosArgs ℝ n p) (S1 : Support n P.blocks1.nb) (S2 : Support n P.blocks2.nb) (pre l : List (Fin n)) : VrtosState ℝ n p :=
  (vrtosEpoch P S1 S2 (vrtosInit P) ((pre ++ l).map Fin.val)).getD (vrtosInit P)

theorem vrtosAfter_eq (P : VrtosArgs ℝ n p) (hP : P.Good) (S1 : Support n P.blocks1.nb) (S2 : Support n P.blocks2.nb) (hS1 : P.support1 = some S1)
    (hS2 : P.support2 = some S2) {pen1 : Fin P.blocks1.nb → (Fin p → ℝ) → ℝ} {pen2 : Fin P.blocks2.nb → (Fin p → ℝ) → ℝ} {f : ℝ → ℝ → ℝ} {M R D mu : ℝ}
    {xs : Fin p → ℝ} (hreg : VrtosRegular P hP.size pen1 pen2 f M R D mu xs) (pre l : List (Fin n)) :
    vrtosEpoch P S1 S2 (vrtosInit P) ((pre ++ l).map Fin.val) = some (vrtosAfter P S1 S2 pre l) := by
  have tot : ∀ {nb : ℕ} {pen : Fin nb → (Fin p → ℝ) → ℝ} {prox : SparseProx ℝ p}, IsBlockProx pen prox → TotalProx nb prox := by
    intro nb pen prox h m d step hs v h1 h2 h3 h4
    obtain ⟨u, hu, -⟩ := h m d step hs v h1 h2 h3 h4
    exact ⟨u, hu⟩
  have hcov : ∀ i, Covered P i := fun i c h1 h2 _ _ _ => by
    obtain ⟨i1, e1⟩ := hreg.touched1 h1
    obtain ⟨i2, e2⟩ := hreg.touched2 h2
    exact ⟨⟨i1, h1, e1, le_refl _⟩, i2, h2, e2, le_refl _⟩
  obtain ⟨st, hst⟩ := C63_in_bounds_partial P hP S1 S2 hS1 hS2 hreg.step_pos.le (tot hreg.prox1) (tot hreg.prox2) ((pre ++ l).map Fin.val) (vrtosInit P)
    (fun i hi => by
      obtain ⟨j, -, rfl⟩ := List.mem_map.mp hi
      exact ⟨j.isLt, hcov _⟩)
  unfold vrtosAfter
  rw [hst]; rfl

/-- The costs of all steps, over uniformly drawn samples. -/
theorem vrtos_mean_costs (P : VrtosArgs ℝ n p) (hP : P.Good) (S1 : Support n P.blocks1.nb) (S2 : Support n P.blocks2.nb) (hS1 : P.support1 = some S1)
    (hS2 : P.support2 = some S2) (pen1 : Fin P.blocks1.nb → (Fin p → ℝ) → ℝ) (pen2 : Fin P.blocks2.nb → (Fin p → ℝ) → ℝ) (f : ℝ → ℝ → ℝ) (M R D mu : ℝ)
    (xs s1 s2 : Fin p → ℝ) (hreg : VrtosRegular P hP.size pen1 pen2 f M R D mu xs) (hdual : VrtosDual P hP.size pen1 pen2 xs s1 s2) (pre : List (Fin n)) (T : ℕ) :
    (∑ t ∈ Finset.range T, uniformMean (fun js : Fin t → Fin n =>
      1 / 2 * ((∑ i, (sqDist (vrtosAfter P S1 S2 pre (List.ofFn js ++ [i])).y1 (vrtosAfter P S1 S2 pre (List.ofFn js)).y1 +
          sqDist (vrtosAfter P S1 S2 pre (List.ofFn js ++ [i])).y2 (vrtosAfter P S1 S2 pre (List.ofFn js)).y2)) / n) +
        P.stepSize * ((∑ i, (P.gi hP.size (vrtosAfter P S1 S2 pre (List.ofFn js)).z i - P.gi hP.size xs i) *
          ∑ c : Fin p, P.A.ent i c * ((vrtosAfter P S1 S2 pre (List.ofFn js)).z c - xs c)) / n + P.alpha * sqDist (vrtosAfter P S1 S2 pre (List.ofFn js)).z xs))) ≤
      vrtosLyap P hP D xs s1 s2 (vrtosAfter P S1 S2 pre []) := by
  have hD0 : 0 ≤ D ∨ p = 0 := by
    rcases Nat.eq_zero_or_pos p with h | h
    · exact Or.inr h
    · left
      classical
      have h1 := hreg.often1 (hP.blocks1.of ⟨0, h⟩) (Finset.univ.filter fun i => Near P.A hP.blocks1 i ⟨0, h⟩) (fun i => by simp)
      by_contra hc
      push Not at hc
      have h2 : D * ((Finset.univ.filter fun i => Near P.A hP.blocks1 i ⟨0, h⟩).card : ℝ) ≤ 0 := mul_nonpos_of_nonpos_of_nonneg hc.le (Nat.cast_nonneg _)
      have h3 : (0 : ℝ) < n := by exact_mod_cast hreg.samples
      linarith
  have hV0 : ∀ st, 0 ≤ vrtosLyap P hP D xs s1 s2 st := by
    rcases hD0 with h | h
    · exact vrtosLyap_nonneg P hP h xs s1 s2
    · intro st
      subst h
      have := vrtosLyap_nonneg P hP (le_refl (0 : ℝ)) xs s1 s2 st
      unfold vrtosLyap at this ⊢
      simpa using this
  have key := mean_telescope (n := n) (V := fun l => vrtosLyap P hP D xs s1 s2 (vrtosAfter P S1 S2 pre l)) (c := fun l =>
      1 / 2 * ((∑ i, (sqDist (vrtosAfter P S1 S2 pre (l ++ [i])).y1 (vrtosAfter P S1 S2 pre l).y1 +
          sqDist (vrtosAfter P S1 S2 pre (l ++ [i])).y2 (vrtosAfter P S1 S2 pre l).y2)) / n) +
        P.stepSize * ((∑ i, (P.gi hP.size (vrtosAfter P S1 S2 pre l).z i - P.gi hP.size xs i) *
          ∑ c : Fin p, P.A.ent i c * ((vrtosAfter P S1 S2 pre l).z c - xs c)) / n + P.alpha * sqDist (vrtosAfter P S1 S2 pre l).z xs)) (fun l => by
    have e := vrtosAfter_eq P hP S1 S2 hS1 hS2 hreg pre l
    have hm := vrtosMem P hP hS1 hS2 _ _ e
    obtain ⟨s, h1, -, -, h2⟩ := vrtos_mean_step P hP S1 S2 hS1 hS2 pen1 pen2 f M R D mu xs s1 s2 hreg hdual _ hm.avg (fun c => by rw [hm.tmp])
    have hs : ∀ i, vrtosAfter P S1 S2 pre (l ++ [i]) = s i := by
      intro i
      have e2 := vrtosAfter_eq P hP S1 S2 hS1 hS2 hreg pre (l ++ [i])
      rw [← List.append_assoc, List.map_append, vrtosEpoch_append, e] at e2
      have e3 : vrtosEpoch P S1 S2 (vrtosAfter P S1 S2 pre l) (List.map Fin.val [i]) = some (s i) := by
        show (vrtosStep P S1 S2 (vrtosAfter P S1 S2 pre l) i.val).bind (fun s => some s) = _
        rw [h1 i]; rfl
      rw [Option.bind_some, e3] at e2
      exact (Option.some.inj e2).symm
    simp only [hs]
    linarith) T
  have h3 := uniformMean_nonneg fun js : Fin T → Fin n => hV0 (vrtosAfter P S1 S2 pre (List.ofFn js))
  linarith

theorem vrtos_mean_square (P : VrtosArgs ℝ n p) (hP : P.Good) (S1 : Support n P.blocks1.nb) (S2 : Support n P.blocks2.nb) (hS1 : P.support1 = some S1)
    (hS2 : P.support2 = some S2) (pen1 : Fin P.blocks1.nb → (Fin p → ℝ) → ℝ) (pen2 : Fin P.blocks2.nb → (Fin p → ℝ) → ℝ) (f : ℝ → ℝ → ℝ) (M R D mu : ℝ)
    (xs s1 s2 : Fin p → ℝ) (hreg : VrtosRegular P hP.size pen1 pen2 f M R D mu xs) (hdual : VrtosDual P hP.size pen1 pen2 xs s1 s2) (pre : List (Fin n))
    (V : ℝ) (hV : V = vrtosLyap P hP D xs s1 s2 (vrtosAfter P S1 S2 pre [])) :
    ∃ s : ∀ T, (Fin T → Fin n) → VrtosState ℝ n p,
      (∀ T js, vrtosEpoch P S1 S2 (vrtosInit P) ((pre ++ List.ofFn js).map Fin.val) = some (s T js)) ∧
      (∀ T, ∑ t ∈ Finset.range T, uniformMean (fun js : Fin (t + 1) → Fin n =>
        sqDist (s (t + 1) js).y1 (s t (Fin.init js)).y1 + sqDist (s (t + 1) js).y2 (s t (Fin.init js)).y2) ≤ 2 * V) ∧
      (∀ T, P.stepSize * ∑ t ∈ Finset.range T, uniformMean (fun js : Fin t → Fin n => ∑ i, (P.deriv (∑ c : Fin p, P.A.ent i c * (s t js).z c) (P.b (i.cast hP.size)) -
        P.deriv (∑ c : Fin p, P.A.ent i c * xs c) (P.b (i.cast hP.size))) ^ 2) ≤ n * M * V) ∧
      (∀ T, P.stepSize * (P.alpha + mu) * ∑ t ∈ Finset.range T, uniformMean (fun js : Fin t → Fin n => sqDist (s t js).z xs) ≤ V) ∧
      (0 < P.alpha + mu → Filter.Tendsto (fun T => uniformMean fun js : Fin T → Fin n => sqDist (s T js).z xs) Filter.atTop (nhds 0)) := by
  have hn : (0 : ℝ) < n := by exact_mod_cast hreg.samples
  have hcost := fun T => vrtos_mean_costs P hP S1 S2 hS1 hS2 pen1 pen2 f M R D mu xs s1 s2 hreg hdual pre T
  set s : ∀ T, (Fin T → Fin n) → VrtosState ℝ n p := fun T js => vrtosAfter P S1 S2 pre (List.ofFn js) with hs
  have hM0 : 0 ≤ M := by
    have := hreg.lip 1 0 0
    rw [sub_zero, abs_one, mul_one] at this
    exact (abs_nonneg _).trans this
  -- the three kinds of cost
  set r : ∀ t, (Fin t → Fin n) → ℝ := fun t js => (∑ i, (sqDist (vrtosAfter P S1 S2 pre (List.ofFn js ++ [i])).y1 (vrtosAfter P S1 S2 pre (List.ofFn js)).y1 +
          sqDist (vrtosAfter P S1 S2 pre (List.ofFn js ++ [i])).y2 (vrtosAfter P S1 S2 pre (List.ofFn js)).y2)) / n with hr
  set N : ∀ t, (Fin t → Fin n) → ℝ := fun t js => (∑ i, (P.gi hP.size (vrtosAfter P S1 S2 pre (List.ofFn js)).z i - P.gi hP.size xs i) *
          ∑ c : Fin p, P.A.ent i c * ((vrtosAfter P S1 S2 pre (List.ofFn js)).z c - xs c)) / n with hN
  have hr0 : ∀ t js, 0 ≤ r t js := fun t js => div_nonneg (Finset.sum_nonneg fun i _ =>
    add_nonneg (Finset.sum_nonneg fun c _ => sq_nonneg _) (Finset.sum_nonneg fun c _ => sq_nonneg _)) hn.le
  have hE0 : ∀ t (js : Fin t → Fin n), 0 ≤ sqDist (s t js).z xs := fun t js => Finset.sum_nonneg fun c _ => sq_nonneg _
  have hco : ∀ (z : Fin p → ℝ) i, (P.gi hP.size z i - P.gi hP.size xs i) ^ 2 ≤ M * ((P.gi hP.size z i - P.gi hP.size xs i) * ∑ c : Fin p, P.A.ent i c * (z c - xs c)) ∧
      0 ≤ (P.gi hP.size z i - P.gi hP.size xs i) * ∑ c : Fin p, P.A.ent i c * (z c - xs c) := by
    intro z i
    have ht : ∑ c : Fin p, P.A.ent i c * (z c - xs c) = ∑ c : Fin p, P.A.ent i c * z c - ∑ c : Fin p, P.A.ent i c * xs c := by
      rw [← Finset.sum_sub_distrib]; exact Finset.sum_congr rfl fun c _ => by ring
    rw [ht]
    exact scalar_coco (hreg.mono (P.target hP.size i)) (fun a b => hreg.lip a b (P.target hP.size i)) _ _
  have hN0 : ∀ t js, 0 ≤ N t js := fun t js => div_nonneg (Finset.sum_nonneg fun i _ => (hco _ i).2) hn.le
  have hstrong : ∀ t js, mu * sqDist (s t js).z xs ≤ N t js := fun t js => hreg.strong _
  have hc : ∀ T, ∑ t ∈ Finset.range T, uniformMean (fun js : Fin t → Fin n => 1 / 2 * r t js + P.stepSize * (N t js + P.alpha * sqDist (s t js).z xs)) ≤ V := fun T => by rw [hV]; exact hcost T
  have hmono : ∀ (T : ℕ) (φ : ∀ t, (Fin t → Fin n) → ℝ), (∀ t js, φ t js ≤ 1 / 2 * r t js + P.stepSize * (N t js + P.alpha * sqDist (s t js).z xs)) →
      ∑ t ∈ Finset.range T, uniformMean (fun js : Fin t → Fin n => φ t js) ≤ V := fun T φ h =>
    (Finset.sum_le_sum fun t _ => uniformMean_mono fun js => h t js).trans (hc T)
  have hst := hreg.step_pos
  have hsumE : ∀ T, P.stepSize * (P.alpha + mu) * ∑ t ∈ Finset.range T, uniformMean (fun js : Fin t → Fin n => sqDist (s t js).z xs) ≤ V := by
    intro T
    rw [Finset.mul_sum]
    have := hmono T (fun t js => P.stepSize * (P.alpha + mu) * sqDist (s t js).z xs) (fun t js => by
      have h1 := mul_le_mul_of_nonneg_left (hstrong t js) hst.le
      have h2 := hr0 t js
      nlinarith)
    refine le_trans (le_of_eq (Finset.sum_congr rfl fun t _ => ?_)) this
    rw [uniformMean_mul]
  refine ⟨s, fun T js => vrtosAfter_eq P hP S1 S2 hS1 hS2 hreg pre _, fun T => ?_, fun T => ?_, hsumE, fun hpos => ?_⟩
  · have h1 := hmono T (fun t js => 1 / 2 * r t js) (fun t js => by
      have h2 := mul_nonneg hst.le (add_nonneg (hN0 t js) (mul_nonneg hreg.alpha (hE0 t js)))
      linarith)
    have h2 : ∀ t, uniformMean (fun js : Fin (t + 1) → Fin n => sqDist (s (t + 1) js).y1 (s t (Fin.init js)).y1 +
        sqDist (s (t + 1) js).y2 (s t (Fin.init js)).y2) = 2 * uniformMean (fun js : Fin t → Fin n => 1 / 2 * r t js) := by
      intro t
      rw [uniformMean_succ, ← uniformMean_mul]
      congr 1
      funext js
      simp only [hr, hs]
      rw [← mul_assoc, mul_one_div_cancel (two_ne_zero), one_mul]
      congr 1
      refine Finset.sum_congr rfl fun i _ => ?_
      have e1 : List.ofFn (Fin.snoc (α := fun _ => Fin n) js i) = List.ofFn js ++ [i] := by
        rw [List.ofFn_succ', List.concat_eq_append]; simp
      have e2 : Fin.init (α := fun _ => Fin n) (Fin.snoc (α := fun _ => Fin n) js i) = js := Fin.init_snoc _ _
      rw [e1, e2]
    simp only [h2]
    rw [← Finset.mul_sum]
    linarith
  · rw [Finset.mul_sum]
    have h1 := hmono T (fun t js => P.stepSize * N t js) (fun t js => by
      have h2 := mul_nonneg hst.le (mul_nonneg hreg.alpha (hE0 t js))
      have h3 := hr0 t js
      nlinarith)
    have h2 := mul_le_mul_of_nonneg_left h1 (mul_nonneg hn.le hM0)
    refine le_trans ?_ h2
    rw [Finset.mul_sum]
    refine Finset.sum_le_sum fun t _ => ?_
    rw [← uniformMean_mul, ← uniformMean_mul]
    refine uniformMean_mono fun js => ?_
    have h3 : ∑ i, (P.deriv (∑ c : Fin p, P.A.ent i c * (s t js).z c) (P.b (i.cast hP.size)) -
        P.deriv (∑ c : Fin p, P.A.ent i c * xs c) (P.b (i.cast hP.size))) ^ 2 ≤ M * (n * N t js) := by
      simp only [hN]
      rw [mul_div_cancel₀ _ hn.ne', Finset.mul_sum]
      exact Finset.sum_le_sum fun i _ => (hco (s t js).z i).1
    calc P.stepSize * _ ≤ P.stepSize * (M * (n * N t js)) := mul_le_mul_of_nonneg_left h3 hst.le
      _ = n * M * (P.stepSize * N t js) := by ring
  · have hpos' : 0 < P.stepSize * (P.alpha + mu) := mul_pos hst hpos
    have hsm : Summable fun T => uniformMean fun js : Fin T → Fin n => sqDist (s T js).z xs := by
      refine summable_of_sum_range_le (c := V / (P.stepSize * (P.alpha + mu))) (fun T => uniformMean_nonneg fun js => hE0 T js) fun T => ?_
      rw [le_div_iff₀ hpos', mul_comm]
      exact hsumE T
    exact hsm.tendsto_atTop_zero

/-- **C112.** For every number `T` of inner iterations on samples drawn independently and uniformly, after any first samples `pre` (the solver's own warm-up
step is `[0]`): the expected squared moves of the two rows of `Y` add up to at most `2 V`, the expected squared errors of the derivatives at `z` add up to at
most `n M V / step`, and the expected squared distances of `z` to the solution add up to at most `V / (step (alpha + mu))`, where `V` does not depend on `T`.
With a strongly convex data term or `alpha > 0`, the expected squared distance of `z` to the solution tends to zero. -/
theorem C112_mean_square (P : VrtosArgs ℝ n p) (hP : P.Good) (S1 : Support n P.blocks1.nb) (S2 : Support n P.blocks2.nb) (hS1 : P.support1 = some S1)
    (hS2 : P.support2 = some S2) (pen1 : Fin P.blocks1.nb → (Fin p → ℝ) → ℝ) (pen2 : Fin P.blocks2.nb → (Fin p → ℝ) → ℝ) (f : ℝ → ℝ → ℝ) (M R D mu : ℝ)
    (xs : Fin p → ℝ) (hreg : VrtosRegular P hP.size pen1 pen2 f M R D mu xs) (pre : List (Fin n)) :
    ∃ (s : ∀ T, (Fin T → Fin n) → VrtosState ℝ n p) (V : ℝ),
      (∀ T js, vrtosEpoch P S1 S2 (vrtosInit P) ((pre ++ List.ofFn js).map Fin.val) = some (s T js)) ∧
      (∀ T, ∑ t ∈ Finset.range T, uniformMean (fun js : Fin (t + 1) → Fin n =>
        sqDist (s (t + 1) js).y1 (s t (Fin.init js)).y1 + sqDist (s (t + 1) js).y2 (s t (Fin.init js)).y2) ≤ 2 * V) ∧
      (∀ T, P.stepSize * ∑ t ∈ Finset.range T, uniformMean (fun js : Fin t → Fin n => ∑ i, (P.deriv (∑ c : Fin p, P.A.ent i c * (s t js).z c) (P.b (i.cast hP.size)) -
        P.deriv (∑ c : Fin p, P.A.ent i c * xs c) (P.b (i.cast hP.size))) ^ 2) ≤ n * M * V) ∧
      (∀ T, P.stepSize * (P.alpha + mu) * ∑ t ∈ Finset.range T, uniformMean (fun js : Fin t → Fin n => sqDist (s t js).z xs) ≤ V) ∧
      (0 < P.alpha + mu → Filter.Tendsto (fun T => uniformMean fun js : Fin T → Fin n => sqDist (s T js).z xs) Filter.atTop (nhds 0)) := by
  obtain ⟨s1, s2, hdual⟩ := hreg.dual
  obtain ⟨s, h⟩ := vrtos_mean_square P hP S1 S2 hS1 hS2 pen1 pen2 f M R D mu xs s1 s2 hreg hdual pre _ rfl
  exact ⟨s, _, h⟩

/-- **C112 (explicit constant).** From the solver's starting point, with `s1` and `s2` the subgradients of the penalties at the solution and `d1`, `d2` the
reweighting arrays: the average over the first `T` iterations of the expected squared distance of `z` to the solution is at most `V / (step (alpha + mu) T)` with `V` the squared norms of
`xs - step d1 (∇f/2 + s1)` and `xs - step d2 (∇f/2 + s2)`, plus `6 step²` times the squared gradients of the samples at the solution, plus a term that vanishes for
`x0 = 0`. -/
theorem C112_rate (P : VrtosArgs ℝ n p) (hP : P.Good) (S1 : Support n P.blocks1.nb) (S2 : Support n P.blocks2.nb) (hS1 : P.support1 = some S1)
    (hS2 : P.support2 = some S2) (pen1 : Fin P.blocks1.nb → (Fin p → ℝ) → ℝ) (pen2 : Fin P.blocks2.nb → (Fin p → ℝ) → ℝ) (f : ℝ → ℝ → ℝ) (M R D mu : ℝ)
    (xs s1 s2 : Fin p → ℝ) (hreg : VrtosRegular P hP.size pen1 pen2 f M R D mu xs) (hdual : VrtosDual P hP.size pen1 pen2 xs s1 s2) :
    ∃ s : ∀ T, (Fin T → Fin n) → VrtosState ℝ n p,
      (∀ T js, vrtosEpoch P S1 S2 (vrtosInit P) (List.ofFn fun k => (js k).val) = some (s T js)) ∧
      ∀ T, P.stepSize * (P.alpha + mu) * ∑ t ∈ Finset.range T, uniformMean (fun js : Fin t → Fin n => sqDist (s t js).z xs) ≤
        (∑ c, vrtosTarget P hP.size hP.blocks1 xs s1 c ^ 2) + (∑ c, vrtosTarget P hP.size hP.blocks2 xs s2 c ^ 2) +
        6 * P.stepSize ^ 2 * (∑ i, P.deriv (∑ c : Fin p, P.A.ent i c * xs c) (P.b (i.cast hP.size)) ^ 2 * ∑ c : Fin p, P.A.ent i c ^ 2) +
        2 * D * ∑ c, |P.x0 c - xs c| * |-P.x0 c / blockWeight P.A hP.blocks1 c + -P.x0 c / blockWeight P.A hP.blocks2 c| := by
  obtain ⟨s, h1, -, -, h2, -⟩ := vrtos_mean_square P hP S1 S2 hS1 hS2 pen1 pen2 f M R D mu xs s1 s2 hreg hdual [] _ rfl
  refine ⟨s, fun T js => ?_, fun T => (h2 T).trans (le_of_eq ?_)⟩
  · have := h1 T js
    rwa [List.nil_append, List.map_ofFn] at this
  · have e : vrtosAfter P S1 S2 [] [] = vrtosInit P := rfl
    rw [e]
    simp only [vrtosLyap, vrtosMemDist, vrtosGap, vrtosInit, sqDist, zero_sub, neg_sq]
    rfl

/-! The problem of `SagaPenalties` with the penalty split in two, `|x|/8 + 3|x|/8`: samples `(1, 0)`, `(0, 1)` with labels 3 and 1, squared loss, every block
touched by one sample in two, started away from zero. -/

/-- Arguments of the example. -/
noncomputable def exVMean : VrtosArgs ℝ 2 2 :=
  { A := exA, bSize := 2, b := ![3, 1], deriv := fun t b => t - b, alpha := 0, x0 := ![1, 1], stepSize := 1 / 9,
    blocks1 := BlockMat.eye 2, blocks2 := BlockMat.eye 2, prox1 := L1Norm.sparse (1 / 8), prox2 := L1Norm.sparse (3 / 8), maxIter := 5, tol := 0,
    order := fun _ => [0, 1] }

theorem exVMean_good : exVMean.Good := ⟨exA_good, exA_nodup, goodBlocks_eye 2, goodBlocks_eye 2, rfl⟩

theorem exVMean_regular : VrtosRegular exVMean exVMean_good.size (l1Pen (1 / 8)) (l1Pen (3 / 8)) (fun t b => (t - b) ^ 2 / 2) 1 1 2 (1 / 2) ![2, 0] := by
  have hm := exMean_regular
  refine ⟨hm.samples, l1Pen_ok _ (by norm_num), l1Pen_ok _ (by norm_num), l1_isBlockProx _ (by norm_num), l1_isBlockProx _ (by norm_num), hm.deriv, hm.mono,
    hm.lip, hm.rows, hm.touched, hm.touched, hm.often, hm.often, le_refl _, fun y => ?_, fun y => hm.strong y, by norm_num [exVMean], by norm_num [exVMean],
    by simp [exVMean]⟩
  have h1 := hm.opt y
  have h2 : ∀ x : Fin 2 → ℝ, (∑ h, l1Pen (1 / 8) h x) + ∑ h, l1Pen (3 / 8) h x = ∑ h, l1Pen (p := 2) (1 / 2 : ℝ) h x := by
    intro x
    rw [← Finset.sum_add_distrib]
    refine Finset.sum_congr rfl fun h _ => ?_
    simp only [l1Pen]
    ring
  have e1 := h2 ![2, 0]
  have e2 := h2 y
  refine le_trans (le_of_eq (congrArg _ e1)) (h1.trans (le_of_eq (congrArg _ e2.symm)))

/-- For the example, `z` converges to `(2, 0)` in mean square after the solver's warm-up step. -/
example : ∃ S1 S2, exVMean.support1 = some S1 ∧ exVMean.support2 = some S2 ∧ ∃ s : ∀ T, (Fin T → Fin 2) → VrtosState ℝ 2 2,
    (∀ T js, vrtosEpoch exVMean S1 S2 (vrtosInit exVMean) (([0] ++ List.ofFn js).map Fin.val) = some (s T js)) ∧
      Filter.Tendsto (fun T => uniformMean fun js : Fin T → Fin 2 => sqDist (s T js).z ![2, 0]) Filter.atTop (nhds 0) := by
  obtain ⟨S1, hS1, -⟩ := exVMean_good.support1
  obtain ⟨S2, hS2, -⟩ := exVMean_good.support2
  obtain ⟨s, V, h1, -, -, -, h2⟩ := C112_mean_square exVMean exVMean_good S1 S2 hS1 hS2 _ _ _ _ _ _ _ _ exVMean_regular [0]
  exact ⟨S1, S2, hS1, hS2, s, h1, h2 (by norm_num [exVMean])⟩

end Copt
