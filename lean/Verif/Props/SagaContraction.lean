import Verif.Props.SagaPenalties
import Verif.Props.Nonexpansive

/-! # `minimize_saga`: the mean over the samples of a Lyapunov function contracts (C82) -/

set_option linter.unusedSectionVars false

namespace Copt

open Spec

section Algebra
variable {n p : ℕ}

/-- One feature: sums over the samples. -/
theorem saga_feature (a : Fin n → ℝ) (chi : Fin n → ℝ) (hchi : ∀ i, chi i = 0 ∨ chi i = 1) (hac : ∀ i, a i * chi i = a i) (w : ℝ) (hw : 0 ≤ w)
    (hsum : ∑ i, chi i * w = n) (A B : Fin n → ℝ) (e dl alpha g : ℝ) (hdl : ∑ i, B i * a i = n * dl) :
    ∑ i, (e - g * ((A i - B i) * a i + chi i * (w * (dl + alpha * e)))) ^ 2 ≤
      n * e ^ 2 - 2 * g * ((∑ i, A i * a i) * e + n * (alpha * e ^ 2)) +
        3 * g ^ 2 * (∑ i, A i ^ 2 * a i ^ 2 + ∑ i, B i ^ 2 * a i ^ 2 + n * (w * (alpha ^ 2 * e ^ 2))) := by
  have hpt : ∀ i, (e - g * ((A i - B i) * a i + chi i * (w * (dl + alpha * e)))) ^ 2 ≤
      e ^ 2 - 2 * g * e * (A i * a i - B i * a i + chi i * w * (dl + alpha * e)) +
        3 * g ^ 2 * (A i ^ 2 * a i ^ 2 + (B i ^ 2 * a i ^ 2 - 2 * (w * dl) * (B i * a i) + chi i * w * (w * dl ^ 2)) +
          chi i * w * (w * (alpha ^ 2 * e ^ 2))) := by
    intro i
    have h1 : (A i * a i - (B i * a i - chi i * (w * dl)) + chi i * (w * (alpha * e))) ^ 2 ≤
        3 * ((A i * a i) ^ 2 + (B i * a i - chi i * (w * dl)) ^ 2 + (chi i * (w * (alpha * e))) ^ 2) := by
      nlinarith [sq_nonneg (A i * a i + (B i * a i - chi i * (w * dl))), sq_nonneg (A i * a i - chi i * (w * (alpha * e))),
        sq_nonneg ((B i * a i - chi i * (w * dl)) + chi i * (w * (alpha * e)))]
    have h2 : (B i * a i - chi i * (w * dl)) ^ 2 = B i ^ 2 * a i ^ 2 - 2 * (w * dl) * (B i * a i) + chi i * w * (w * dl ^ 2) := by
      rcases hchi i with h | h
      · have := hac i
        rw [h, mul_zero] at this
        rw [h, ← this]; ring
      · rw [h]; ring
    have h3 : (chi i * (w * (alpha * e))) ^ 2 = chi i * w * (w * (alpha ^ 2 * e ^ 2)) := by
      rcases hchi i with h | h <;> rw [h] <;> ring
    have h4 := mul_le_mul_of_nonneg_left h1 (sq_nonneg g)
    rw [h2, h3] at h4
    nlinarith [h4]
  refine (Finset.sum_le_sum fun i _ => hpt i).trans ?_
  have hlin : ∑ i, (e ^ 2 - 2 * g * e * (A i * a i - B i * a i + chi i * w * (dl + alpha * e)) +
        3 * g ^ 2 * (A i ^ 2 * a i ^ 2 + (B i ^ 2 * a i ^ 2 - 2 * (w * dl) * (B i * a i) + chi i * w * (w * dl ^ 2)) +
          chi i * w * (w * (alpha ^ 2 * e ^ 2)))) =
      n * e ^ 2 + (-(2 * g * e)) * ∑ i, A i * a i + (2 * g * e - 6 * g ^ 2 * (w * dl)) * ∑ i, B i * a i +
        (-(2 * g * e * (dl + alpha * e)) + 3 * g ^ 2 * (w * dl ^ 2 + w * (alpha ^ 2 * e ^ 2))) * ∑ i, chi i * w +
        3 * g ^ 2 * ∑ i, A i ^ 2 * a i ^ 2 + 3 * g ^ 2 * ∑ i, B i ^ 2 * a i ^ 2 := by
    have hc : (n : ℝ) * e ^ 2 = ∑ _i : Fin n, e ^ 2 := by simp
    rw [hc]
    simp only [Finset.mul_sum, ← Finset.sum_add_distrib]
    exact Finset.sum_congr rfl fun i _ => by ring
  rw [hlin, hsum, hdl]
  have : 0 ≤ (n : ℝ) * (w * dl ^ 2) := by positivity
  nlinarith [mul_nonneg (sq_nonneg g) this]

/-- All features. -/
theorem saga_sum (a : Fin n → Fin p → ℝ) (chi : Fin n → Fin p → ℝ) (hchi : ∀ i c, chi i c = 0 ∨ chi i c = 1) (hac : ∀ i c, a i c * chi i c = a i c)
    (w : Fin p → ℝ) (hw : ∀ c, 0 ≤ w c) (D : ℝ) (hD : ∀ c, w c ≤ D) (hsum : ∀ c, ∑ i, chi i c * w c = n) (A B : Fin n → ℝ) (e dl : Fin p → ℝ)
    (alpha g : ℝ) (hdl : ∀ c, ∑ i, B i * a i c = n * dl c) :
    ∑ i, ∑ c, (e c - g * ((A i - B i) * a i c + chi i c * (w c * (dl c + alpha * e c)))) ^ 2 ≤
      n * ∑ c, e c ^ 2 - 2 * g * (∑ i, A i * ∑ c, a i c * e c + n * (alpha * ∑ c, e c ^ 2)) +
        3 * g ^ 2 * (∑ i, A i ^ 2 * ∑ c, a i c ^ 2 + ∑ i, B i ^ 2 * ∑ c, a i c ^ 2 + n * (D * (alpha ^ 2 * ∑ c, e c ^ 2))) := by
  rw [Finset.sum_comm]
  refine (Finset.sum_le_sum fun c _ => saga_feature (fun i => a i c) (fun i => chi i c) (fun i => hchi i c) (fun i => hac i c) (w c) (hw c) (hsum c)
    A B (e c) (dl c) alpha g (hdl c)).trans ?_
  have h1 : ∀ c, n * e c ^ 2 - 2 * g * ((∑ i, A i * a i c) * e c + n * (alpha * e c ^ 2)) +
        3 * g ^ 2 * (∑ i, A i ^ 2 * a i c ^ 2 + ∑ i, B i ^ 2 * a i c ^ 2 + n * (w c * (alpha ^ 2 * e c ^ 2))) ≤
      n * e c ^ 2 - 2 * g * ((∑ i, A i * a i c) * e c + n * (alpha * e c ^ 2)) +
        3 * g ^ 2 * (∑ i, A i ^ 2 * a i c ^ 2 + ∑ i, B i ^ 2 * a i c ^ 2 + n * (D * (alpha ^ 2 * e c ^ 2))) := by
    intro c
    have : w c * (alpha ^ 2 * e c ^ 2) ≤ D * (alpha ^ 2 * e c ^ 2) := mul_le_mul_of_nonneg_right (hD c) (by positivity)
    have := mul_le_mul_of_nonneg_left this (Nat.cast_nonneg (α := ℝ) n)
    gcongr
  refine (Finset.sum_le_sum fun c _ => h1 c).trans (le_of_eq ?_)
  rw [Finset.sum_add_distrib, Finset.sum_sub_distrib, ← Finset.mul_sum, ← Finset.mul_sum, ← Finset.mul_sum, Finset.sum_add_distrib,
    Finset.sum_add_distrib, Finset.sum_add_distrib, ← Finset.mul_sum, ← Finset.mul_sum, ← Finset.mul_sum, ← Finset.mul_sum, ← Finset.mul_sum]
  have e1 : ∑ c, (∑ i, A i * a i c) * e c = ∑ i, A i * ∑ c, a i c * e c := by
    simp only [Finset.sum_mul, Finset.mul_sum]
    rw [Finset.sum_comm]
    exact Finset.sum_congr rfl fun i _ => Finset.sum_congr rfl fun c _ => by ring
  have e2 : ∀ C : Fin n → ℝ, ∑ c, ∑ i, C i ^ 2 * a i c ^ 2 = ∑ i, C i ^ 2 * ∑ c, a i c ^ 2 := by
    intro C
    rw [Finset.sum_comm]
    exact Finset.sum_congr rfl fun i _ => by rw [Finset.mul_sum]
  rw [e1, e2, e2]

end Algebra

section Contraction

theorem scalar_coco {d : ℝ → ℝ} (hmono : Monotone d) {M : ℝ} (hM : ∀ s t, |d s - d t| ≤ M * |s - t|) (s t : ℝ) :
    (d s - d t) ^ 2 ≤ M * ((d s - d t) * (s - t)) ∧ 0 ≤ (d s - d t) * (s - t) := by
  have key : (d s - d t) * (s - t) = |d s - d t| * |s - t| := by
    rcases le_total s t with h | h
    · rw [abs_of_nonpos (sub_nonpos.mpr (hmono h)), abs_of_nonpos (sub_nonpos.mpr h)]; ring
    · rw [abs_of_nonneg (sub_nonneg.mpr (hmono h)), abs_of_nonneg (sub_nonneg.mpr h)]
  rw [key]
  refine ⟨?_, by positivity⟩
  rw [← sq_abs, sq]
  calc |d s - d t| * |d s - d t| ≤ |d s - d t| * (M * |s - t|) := mul_le_mul_of_nonneg_left (hM s t) (abs_nonneg _)
    _ = _ := by ring

variable {n p : ℕ}

theorem saga_arith {n X E H Q N M R D mu alpha step : ℝ} (hn : 0 < n) (hstep : 0 < step) (halpha : 0 ≤ alpha) (hE : 0 ≤ E) (hH : 0 ≤ H) (hN : 0 ≤ N)
    (hQN : Q ≤ M * R * N) (hmu : n * (mu * E) ≤ N) (hs1 : 9 * step * (M * R) ≤ 1) (hs2 : 3 * step * (alpha * D) ≤ 1)
    (hX : X ≤ n * E - 2 * step * (N + n * (alpha * E)) + 3 * step ^ 2 * (Q + H + n * (D * (alpha ^ 2 * E)))) :
    X + 6 * step ^ 2 * ((n - 1) * H + Q) ≤ (1 - min (1 / (2 * n)) (step * (alpha + mu))) * (E + 6 * step ^ 2 * H) * n := by
  have k1 : 3 * step ^ 2 * (n * (D * (alpha ^ 2 * E))) ≤ step * (n * (alpha * E)) := by
    have : 0 ≤ step * (n * (alpha * E)) := by positivity
    nlinarith [mul_le_mul_of_nonneg_right hs2 this]
  have k2 : 9 * step ^ 2 * Q ≤ step * N := by
    have h1 : 9 * step ^ 2 * Q ≤ 9 * step ^ 2 * (M * R * N) := mul_le_mul_of_nonneg_left hQN (by positivity)
    have h2 := mul_le_mul_of_nonneg_right hs1 (mul_nonneg hstep.le hN)
    nlinarith
  have k3 : step * (n * (mu * E)) ≤ step * N := mul_le_mul_of_nonneg_left hmu hstep.le
  set r := min (1 / (2 * n)) (step * (alpha + mu)) with hr
  have r1 : r * n ≤ 1 / 2 := by
    have : r ≤ 1 / (2 * n) := min_le_left _ _
    rw [le_div_iff₀ (by positivity)] at this
    linarith
  have r2 : r ≤ step * (alpha + mu) := min_le_right _ _
  have k4 : r * (n * E) ≤ step * (alpha + mu) * (n * E) := mul_le_mul_of_nonneg_right r2 (by positivity)
  have k5 : (r * n) * (6 * step ^ 2 * H) ≤ 1 / 2 * (6 * step ^ 2 * H) := mul_le_mul_of_nonneg_right r1 (by positivity)
  nlinarith

/-- Squared distance to `xs` plus the weighted squared distance of the memory table to the derivatives at `xs`. -/
noncomputable def sagaLyap (P : VRArgs ℝ n p) (step : ℝ) (xs : Fin p → ℝ) (st : SagaState ℝ n p) : ℝ :=
  sqDist st.x xs + 6 * step ^ 2 * ∑ i, (st.mem i - P.deriv (∑ c : Fin p, P.A.ent i c * xs c) (P.b i)) ^ 2 * ∑ c : Fin p, P.A.ent i c ^ 2

/-- The assumptions of the contraction: `xs` minimises the objective of the problem handed to the solver, whose losses are convex with `M`-Lipschitz
derivatives, whose rows have squared norm at most `R` and whose block penalties are convex; every block is touched by at least one in `D` samples; the step
is at most `1 / (9 M R)` and `1 / (3 alpha D)`; `mu` is a strong convexity constant of the data term at `xs` (zero always is one). -/
structure SagaRegular (P : VRArgs ℝ n p) (pen : Fin P.blocks.nb → (Fin p → ℝ) → ℝ) (f : ℝ → ℝ → ℝ) (M R D mu : ℝ) (xs : Fin p → ℝ) (step : ℝ) : Prop where
  samples : 0 < n
  penalty : IsBlockPenalty P.blocks.ptr pen
  prox : IsBlockProx pen P.prox
  deriv : ∀ t b, HasDerivAt (fun s => f s b) (P.deriv t b) t
  mono : ∀ b, Monotone fun t => P.deriv t b
  lip : ∀ s t b, |P.deriv s b - P.deriv t b| ≤ M * |s - t|
  rows : ∀ i, ∑ c : Fin p, P.A.ent i c ^ 2 ≤ R
  touched : ∀ h, ∃ i, Touches P.A.indptr P.A.indices P.blocks.ptr i h
  often : ∀ h (T : Finset (Fin n)), (∀ i, i ∈ T ↔ Touches P.A.indptr P.A.indices P.blocks.ptr i h) → (n : ℝ) ≤ D * T.card
  alpha : 0 ≤ P.alpha
  opt : ∀ y, finiteSum (fun i (c : Fin p) => P.A.ent i c) P.b f P.alpha xs + ∑ h, pen h xs ≤
      finiteSum (fun i (c : Fin p) => P.A.ent i c) P.b f P.alpha y + ∑ h, pen h y
  strong : ∀ y, mu * sqDist y xs ≤ (∑ i, (P.deriv (∑ c : Fin p, P.A.ent i c * y c) (P.b i) -
      P.deriv (∑ c : Fin p, P.A.ent i c * xs c) (P.b i)) * ∑ c : Fin p, P.A.ent i c * (y c - xs c)) / n
  step_pos : 0 < step
  step_lip : 9 * step * (M * R) ≤ 1
  step_alpha : 3 * step * (P.alpha * D) ≤ 1

/-- The mean over all samples of the Lyapunov function after one inner iteration, with the memory still consistent. -/
theorem mean_step (P : VRArgs ℝ n p) (hP : P.Good) (S : Support n P.blocks.nb) (hS : P.support = some S)
    (pen : Fin P.blocks.nb → (Fin p → ℝ) → ℝ) (f : ℝ → ℝ → ℝ) (M R D mu : ℝ) (xs : Fin p → ℝ) (step : ℝ) (hreg : SagaRegular P pen f M R D mu xs step)
    (st : SagaState ℝ n p) (havg : ∀ c : Fin p, st.avg c = (∑ i, st.mem i * P.A.ent i c) / (n : ℝ)) (htmp : ∀ c, st.tmp c = 0) :
    ∃ s : Fin n → SagaState ℝ n p, (∀ i : Fin n, sagaStep P S step st i = some (s i)) ∧
      (∀ i (c : Fin p), (s i).avg c = (∑ j, (s i).mem j * P.A.ent j c) / (n : ℝ)) ∧ (∀ i c, (s i).tmp c = 0) ∧
      (∑ i, sagaLyap P step xs (s i)) / n ≤ (1 - min (1 / (2 * (n : ℝ))) (step * (P.alpha + mu))) * sagaLyap P step xs st := by
  obtain ⟨hn0, hpen, hprox, hf, hmono, hM, hR, hall, hD, halpha, hmin, hmu, hstep, hs1, hs2⟩ := hreg
  classical
  obtain ⟨S', hS', hok⟩ := hP.support
  rw [hS] at hS'
  obtain rfl := Option.some.inj hS'
  -- optimality of `xs`, block by block
  have hopt := opt_of_min (fun i (c : Fin p) => P.A.ent i c) P.b f P.deriv hf P.alpha (fun y => ∑ h, pen h y)
    (fun x y t h0 h1 => by
      rw [Finset.mul_sum, Finset.mul_sum, ← Finset.sum_add_distrib]
      exact Finset.sum_le_sum fun h _ => hpen.conv h x y t h0 h1) xs hmin
  have hblk := (opt_blocks hP.blocks hpen _ xs).mp hopt
  set G := finiteSumGrad (fun i (c : Fin p) => P.A.ent i c) P.b P.deriv P.alpha xs with hG
  set gs : Fin n → ℝ := fun i => P.deriv (∑ c : Fin p, P.A.ent i c * xs c) (P.b i) with hgs
  set w : Fin p → ℝ := blockWeight P.A hP.blocks with hwdef
  set chi : Fin n → Fin p → ℝ := fun i c => if Near P.A hP.blocks i c then 1 else 0 with hchidef
  set e : Fin p → ℝ := fun c => st.x c - xs c with hedef
  set dl : Fin p → ℝ := fun c => st.avg c - (∑ i, gs i * P.A.ent i c) / n with hdldef
  set A : Fin n → ℝ := fun i => P.gi st.x i - gs i with hAdef
  set B : Fin n → ℝ := fun i => st.mem i - gs i with hBdef
  have hn : (0 : ℝ) < n := by exact_mod_cast hn0
  -- each step
  have hstepi : ∀ i : Fin n, ∃ s, sagaStep P S step st i = some s ∧
      sqDist s.x xs ≤ ∑ c, (e c - step * ((A i - B i) * P.A.ent i c + chi i c * (w c * (dl c + P.alpha * e c)))) ^ 2 ∧
      s.mem = Function.update st.mem i (P.gi st.x i) ∧ (∀ c : Fin p, s.avg c = st.avg c + (P.gi st.x i - st.mem i) * P.A.ent i c / n) ∧
      ∀ c, s.tmp c = 0 := by
    intro i
    obtain ⟨hs, hr, hspec⟩ := sagaStep_spec P hP hok step st (funext htmp) i
    obtain ⟨hs', hr', hnd, hlt, hmemb⟩ := hok.row i
    rw [hr] at hr'
    obtain rfl := Option.some.inj hr'
    have hwd := listed_lt_width hok hlt hmemb
    obtain ⟨u, hu, hup⟩ := hprox _ (supWeights n S.bs) step hs (sagaMid P hP step st i) (supWeights_nonneg n S.bs) hstep.le hnd
      (fun h hh => ⟨hlt h hh, hwd h hh⟩)
    set v : Fin p → ℝ := fun c => xs c - step * (chi i c * (w c * G c)) with hv
    obtain ⟨q, -, hqp⟩ := hprox _ (supWeights n S.bs) step hs v (supWeights_nonneg n S.bs) hstep.le hnd
      (fun h hh => ⟨hlt h hh, hwd h hh⟩)
    have hq : q = xs := (prox_fixed_iff hP.blocks hok hpen hstep hlt hmemb xs v q G
      (fun c hc => by simp only [hv, hchidef, if_pos hc, one_mul]; rfl) (fun c hc => by simp only [hv, hchidef, if_neg hc]; ring) hqp).mpr
      fun h _ y => hblk h y
    rw [hq] at hqp
    refine ⟨_, by rw [hspec, hu]; rfl, ?_, rfl, fun c => rfl, fun c => rfl⟩
    have hne := prox_nonexpansive hstep.le (fun x y t => listedPen_conv hP.blocks hpen (w := getD0 (supWeights n S.bs : Fin (supWidth S.bs) → ℝ))
      (fun h hh => by rw [getD0_lt _ (hwd h hh)]; exact supWeights_nonneg n S.bs _) x y t) hup hqp
    refine hne.trans (le_of_eq ?_)
    unfold sqDist
    refine Finset.sum_congr rfl fun c _ => ?_
    congr 1
    unfold sagaMid
    by_cases hc : Near P.A hP.blocks i c
    · simp only [if_pos hc, hv, hchidef, hedef, hdldef, hAdef, hBdef, hG, finiteSumGrad, hwdef, hgs]
      ring
    · have : P.A.ent i c = 0 := ent_eq_zero fun hh => hc (near_of_stores hP.blocks hh)
      simp only [if_neg hc, hv, hchidef, hedef, this]; ring
  choose s hs hdist hmem havg' htmp' using hstepi
  refine ⟨s, hs, fun i c => ?_, htmp', ?_⟩
  · rw [havg', havg, hmem, ← add_div]
    congr 1
    rw [eq_comm, ← sub_eq_iff_eq_add', ← Finset.sum_sub_distrib, Finset.sum_eq_single i]
    · rw [Function.update_self]; ring
    · intro j _ hj
      rw [Function.update_of_ne hj]; ring
    · simp
  have hR0 : 0 ≤ R := (Finset.sum_nonneg fun c _ => sq_nonneg _).trans (hR ⟨0, hn0⟩)
  set q : Fin n → ℝ := fun i => ∑ c : Fin p, P.A.ent i c ^ 2 with hqdef
  have hq0 : ∀ i, 0 ≤ q i := fun i => Finset.sum_nonneg fun c _ => sq_nonneg _
  set N : ℝ := ∑ i, A i * ∑ c : Fin p, P.A.ent i c * e c with hN
  set H : ℝ := ∑ i, B i ^ 2 * q i with hH
  set Q : ℝ := ∑ i, A i ^ 2 * q i with hQ
  have hH0 : 0 ≤ H := Finset.sum_nonneg fun i _ => mul_nonneg (sq_nonneg _) (hq0 i)
  have hE : sqDist st.x xs = ∑ c, e c ^ 2 := rfl
  have hE0 : 0 ≤ sqDist st.x xs := by rw [hE]; exact Finset.sum_nonneg fun c _ => sq_nonneg _
  -- the memory part
  have hmemsum : ∑ i, ∑ j, ((s i).mem j - gs j) ^ 2 * q j = (n - 1) * H + Q := by
    have h1 : ∀ i, ∑ j, ((s i).mem j - gs j) ^ 2 * q j = H + (A i ^ 2 * q i - B i ^ 2 * q i) := by
      intro i
      rw [hH, ← sub_eq_iff_eq_add', ← Finset.sum_sub_distrib, Finset.sum_eq_single i]
      · rw [hmem, Function.update_self]
      · intro j _ hj
        rw [hmem, Function.update_of_ne hj]; simp [hBdef]
      · simp
    simp only [h1, Finset.sum_add_distrib, Finset.sum_sub_distrib, Finset.sum_const, Finset.card_univ, Fintype.card_fin, nsmul_eq_mul]
    rw [← hH, ← hQ]; ring
  -- cocoercivity of the scalar losses
  have hco : ∀ i, A i ^ 2 ≤ M * (A i * ∑ c : Fin p, P.A.ent i c * e c) ∧ 0 ≤ A i * ∑ c : Fin p, P.A.ent i c * e c := by
    intro i
    have ht : ∑ c : Fin p, P.A.ent i c * e c = ∑ c : Fin p, P.A.ent i c * st.x c - ∑ c : Fin p, P.A.ent i c * xs c := by
      rw [← Finset.sum_sub_distrib]; exact Finset.sum_congr rfl fun c _ => by simp only [hedef]; ring
    have hA : A i = P.deriv (∑ c : Fin p, P.A.ent i c * st.x c) (P.b i) - P.deriv (∑ c : Fin p, P.A.ent i c * xs c) (P.b i) := rfl
    rw [ht, hA]
    exact scalar_coco (hmono (P.b i)) (fun a b => hM a b (P.b i)) _ _
  have hN0 : 0 ≤ N := Finset.sum_nonneg fun i _ => (hco i).2
  have hQN : Q ≤ M * R * N := by
    rw [hQ, hN, Finset.mul_sum]
    refine Finset.sum_le_sum fun i _ => ?_
    calc A i ^ 2 * q i ≤ A i ^ 2 * R := mul_le_mul_of_nonneg_left (hR i) (sq_nonneg _)
      _ ≤ (M * (A i * ∑ c : Fin p, P.A.ent i c * e c)) * R := mul_le_mul_of_nonneg_right (hco i).1 hR0
      _ = _ := by ring
  have hmuN : n * (mu * sqDist st.x xs) ≤ N := by
    have := hmu st.x
    rw [le_div_iff₀ hn] at this
    calc n * (mu * sqDist st.x xs) = mu * sqDist st.x xs * n := by ring
      _ ≤ N := this
  -- the iterates
  have hxsum : ∑ i, sqDist (s i).x xs ≤ n * sqDist st.x xs - 2 * step * (N + n * (P.alpha * sqDist st.x xs)) +
      3 * step ^ 2 * (Q + H + n * (D * (P.alpha ^ 2 * sqDist st.x xs))) := by
    refine (Finset.sum_le_sum fun i _ => hdist i).trans ?_
    refine saga_sum (fun i (c : Fin p) => P.A.ent i c) chi (fun i c => ?_) (fun i c => ?_) w (fun c => ?_) D (fun c => ?_) (fun c => ?_) A B e dl P.alpha step
      (fun c => ?_)
    · simp only [hchidef]; split <;> simp
    · simp only [hchidef]
      split_ifs with hc
      · ring
      · rw [ent_eq_zero fun hh => hc (near_of_stores hP.blocks hh)]; ring
    · simp only [hwdef, blockWeight]; positivity
    · have h1 := hD (hP.blocks.of c) (Finset.univ.filter fun i => Near P.A hP.blocks i c) (fun i => by simp)
      simp only [hwdef, blockWeight]
      obtain ⟨i, hi⟩ := hall (hP.blocks.of c)
      have hpos : 0 < touchCount P.A P.blocks.ptr (hP.blocks.of c) := by
        unfold touchCount
        exact Finset.card_pos.mpr ⟨i, by simpa using hi⟩
      rw [div_le_iff₀ (by exact_mod_cast hpos)]
      refine h1.trans (le_of_eq ?_)
      unfold touchCount
      congr
    · have := sum_near_weight P.A hP.blocks c (hall (hP.blocks.of c)) (1 : ℝ)
      simp only [mul_one] at this
      refine Eq.trans ?_ this
      refine Finset.sum_congr rfl fun i _ => ?_
      simp only [hchidef, hwdef]
      split_ifs <;> ring
    · simp only [hdldef, hBdef, sub_mul, Finset.sum_sub_distrib]
      rw [havg c]; field_simp
  have hV : ∑ i, sagaLyap P step xs (s i) = ∑ i, sqDist (s i).x xs + 6 * step ^ 2 * ((n - 1) * H + Q) := by
    unfold sagaLyap
    rw [Finset.sum_add_distrib, ← Finset.mul_sum, hmemsum]
  have hV0 : sagaLyap P step xs st = sqDist st.x xs + 6 * step ^ 2 * H := rfl
  rw [hV, hV0, div_le_iff₀ hn]
  exact saga_arith hn hstep halpha hE0 hH0 hN0 hQN hmuN hs1 hs2 hxsum

/-- **C82 (one step).** From every state with a consistent memory, one inner iteration of SAGA with a uniformly drawn sample shrinks the expected distance to
the minimiser, measured by `sagaLyap`, by the factor `1 - min (1/(2n)) (step (alpha + mu))`. -/
theorem C82_mean_contraction (P : VRArgs ℝ n p) (hP : P.Good) (S : Support n P.blocks.nb) (hS : P.support = some S)
    (pen : Fin P.blocks.nb → (Fin p → ℝ) → ℝ) (f : ℝ → ℝ → ℝ) (M R D mu : ℝ) (xs : Fin p → ℝ) (step : ℝ) (hreg : SagaRegular P pen f M R D mu xs step)
    (st : SagaState ℝ n p) (havg : ∀ c : Fin p, st.avg c = (∑ i, st.mem i * P.A.ent i c) / (n : ℝ)) (htmp : ∀ c, st.tmp c = 0) :
    ∃ s : Fin n → SagaState ℝ n p, (∀ i : Fin n, sagaStep P S step st i = some (s i)) ∧
      (∑ i, sagaLyap P step xs (s i)) / n ≤ (1 - min (1 / (2 * (n : ℝ))) (step * (P.alpha + mu))) * sagaLyap P step xs st := by
  obtain ⟨s, h1, -, -, h2⟩ := mean_step P hP S hS pen f M R D mu xs step hreg st havg htmp
  exact ⟨s, h1, h2⟩

theorem mean_steps (P : VRArgs ℝ n p) (hP : P.Good) (S : Support n P.blocks.nb) (hS : P.support = some S)
    (pen : Fin P.blocks.nb → (Fin p → ℝ) → ℝ) (f : ℝ → ℝ → ℝ) (M R D mu : ℝ) (xs : Fin p → ℝ) (step : ℝ) (hreg : SagaRegular P pen f M R D mu xs step) (T : ℕ) :
    ∀ st : SagaState ℝ n p, (∀ c : Fin p, st.avg c = (∑ i, st.mem i * P.A.ent i c) / (n : ℝ)) → (∀ c, st.tmp c = 0) →
    ∃ s : (Fin T → Fin n) → SagaState ℝ n p, (∀ js, sagaEpoch P S step st (List.ofFn fun k => (js k).val) = some (s js)) ∧
      (∑ js, sagaLyap P step xs (s js)) / (n : ℝ) ^ T ≤
        (1 - min (1 / (2 * (n : ℝ))) (step * (P.alpha + mu))) ^ T * sagaLyap P step xs st := by
  have hn : (0 : ℝ) < n := by exact_mod_cast hreg.samples
  have hn1 : (1 : ℝ) ≤ n := by exact_mod_cast hreg.samples
  have hr : 0 ≤ 1 - min (1 / (2 * (n : ℝ))) (step * (P.alpha + mu)) := by
    have h1 : min (1 / (2 * (n : ℝ))) (step * (P.alpha + mu)) ≤ 1 / (2 * (n : ℝ)) := min_le_left _ _
    have h2 : 1 / (2 * (n : ℝ)) ≤ 1 := by rw [div_le_one (by positivity)]; linarith
    linarith
  set r := 1 - min (1 / (2 * (n : ℝ))) (step * (P.alpha + mu)) with hrdef
  induction T with
  | zero =>
    intro st _ _
    exact ⟨fun _ => st, fun js => by simp [sagaEpoch], by simp⟩
  | succ T ih =>
    intro st havg htmp
    obtain ⟨s, h1, ha, ht, h2⟩ := mean_step P hP S hS pen f M R D mu xs step hreg st havg htmp
    choose q hq1 hq2 using fun i => ih (s i) (ha i) (ht i)
    refine ⟨fun js => q (js 0) (fun k => js k.succ), fun js => ?_, ?_⟩
    · rw [List.ofFn_succ]
      show (sagaStep P S step st (js 0).val).bind (fun s' => sagaEpoch P S step s' _) = _
      rw [h1]
      exact hq1 _ _
    · have hsum : ∑ js : Fin (T + 1) → Fin n, sagaLyap P step xs (q (js 0) fun k => js k.succ) = ∑ i, ∑ js, sagaLyap P step xs (q i js) := by
        rw [← Fintype.sum_prod_type', ← (Fin.consEquiv fun _ => Fin n).sum_comp]
        exact Finset.sum_congr rfl fun x _ => by simp [Fin.consEquiv]
      rw [hsum, div_le_iff₀ (by positivity)]
      have hle : ∀ i, ∑ js, sagaLyap P step xs (q i js) ≤ r ^ T * (n : ℝ) ^ T * sagaLyap P step xs (s i) := by
        intro i
        have := hq2 i
        rw [div_le_iff₀ (by positivity)] at this
        linarith
      refine (Finset.sum_le_sum fun i _ => hle i).trans ?_
      rw [← Finset.mul_sum]
      rw [div_le_iff₀ hn] at h2
      refine (mul_le_mul_of_nonneg_left h2 (by positivity)).trans (le_of_eq ?_)
      ring

/-- **C82 (every number of steps).** After `T` inner iterations on independent uniform samples, started where the solver starts, the expected squared distance
to the minimiser is at most `(1 - rho)^T` times its initial value (distance plus the memory term, which starts from an all-zero memory). -/
theorem C82_mean_convergence (P : VRArgs ℝ n p) (hP : P.Good) (S : Support n P.blocks.nb) (hS : P.support = some S)
    (pen : Fin P.blocks.nb → (Fin p → ℝ) → ℝ) (f : ℝ → ℝ → ℝ) (M R D mu : ℝ) (xs : Fin p → ℝ) (step : ℝ) (hreg : SagaRegular P pen f M R D mu xs step) (T : ℕ) :
    ∃ s : (Fin T → Fin n) → SagaState ℝ n p, (∀ js, sagaEpoch P S step (sagaInit P) (List.ofFn fun k => (js k).val) = some (s js)) ∧
      (∑ js, sqDist (s js).x xs) / (n : ℝ) ^ T ≤ (1 - min (1 / (2 * (n : ℝ))) (step * (P.alpha + mu))) ^ T *
        (sqDist P.x0 xs + 6 * step ^ 2 * ∑ i, P.deriv (∑ c : Fin p, P.A.ent i c * xs c) (P.b i) ^ 2 * ∑ c : Fin p, P.A.ent i c ^ 2) := by
  obtain ⟨s, h1, h2⟩ := mean_steps P hP S hS pen f M R D mu xs step hreg T (sagaInit P) (fun c => by simp [sagaInit]) (fun c => by simp [sagaInit])
  refine ⟨s, h1, ?_⟩
  have hn : (0 : ℝ) < n := by exact_mod_cast hreg.samples
  have h3 : sagaLyap P step xs (sagaInit P) =
      sqDist P.x0 xs + 6 * step ^ 2 * ∑ i, P.deriv (∑ c : Fin p, P.A.ent i c * xs c) (P.b i) ^ 2 * ∑ c : Fin p, P.A.ent i c ^ 2 := by
    simp [sagaLyap, sagaInit]
  rw [h3] at h2
  refine le_trans ?_ h2
  refine div_le_div_of_nonneg_right (Finset.sum_le_sum fun js _ => ?_) (by positivity)
  unfold sagaLyap
  have : 0 ≤ ∑ i, ((s js).mem i - P.deriv (∑ c : Fin p, P.A.ent i c * xs c) (P.b i)) ^ 2 * ∑ c : Fin p, P.A.ent i c ^ 2 :=
    Finset.sum_nonneg fun i _ => mul_nonneg (sq_nonneg _) (Finset.sum_nonneg fun c _ => sq_nonneg _)
  nlinarith [sq_nonneg step]

/-! The problem of `SagaPenalties`: samples `(1, 0)`, `(0, 1)` with labels 3 and 1, squared loss and penalty `|x_0|/2 + |x_1|/2`; every block is touched by
one sample in two. -/

/-- Arguments of the example. -/
noncomputable def exMean : VRArgs ℝ 2 2 :=
  { A := exA, b := ![3, 1], deriv := fun t b => t - b, alpha := 0, x0 := ![0, 0], stepSize := some (1 / 9),
    blocks := BlockMat.eye 2, prox := L1Norm.sparse (1 / 2), maxIter := 5, tol := 0, order := fun _ => [0, 1] }

theorem exMean_regular : SagaRegular exMean (l1Pen (1 / 2)) (fun t b => (t - b) ^ 2 / 2) 1 1 2 (1 / 2) ![2, 0] (1 / 9) := by
  have htouch : ∀ h : Fin 2, Touches exA.indptr exA.indices (BlockMat.eye 2).ptr h h := fun h =>
    ⟨h.val, ⟨h, by fin_cases h <;> simp [exA], by fin_cases h <;> simp [exA], by fin_cases h <;> simp [exA]⟩, le_refl _, Nat.lt_succ_self _⟩
  refine ⟨by norm_num, l1Pen_ok _ (by norm_num), l1_isBlockProx _ (by norm_num), fun t b => ?_, fun b s t h => ?_, fun s t b => ?_, fun i => ?_,
    fun h => ⟨h, htouch h⟩, fun h T hT => ?_, le_refl _, fun y => ?_, fun y => ?_, by norm_num, by norm_num, by simp [exMean]⟩
  · show HasDerivAt _ (t - b) t
    have := ((hasDerivAt_id t).sub_const b).fun_pow 2 |>.div_const 2
    simpa using this
  · simpa [exMean] using h
  · simp [exMean]
  · show ∑ c : Fin 2, exA.ent i c ^ 2 ≤ 1
    simp only [exA_ent, Fin.sum_univ_two]
    fin_cases i <;> simp
  · have hpos : 1 ≤ T.card := Finset.card_pos.mpr ⟨h, (hT h).mpr (htouch h)⟩
    have : (1 : ℝ) ≤ T.card := by exact_mod_cast hpos
    push_cast; linarith
  · show finiteSum (fun i (c : Fin 2) => exA.ent i c) ![3, 1] _ 0 ![2, 0] + ∑ h : Fin 2, 1 / 2 * |(![2, 0] : Fin 2 → ℝ) h| ≤
      finiteSum (fun i (c : Fin 2) => exA.ent i c) ![3, 1] _ 0 y + ∑ h : Fin 2, 1 / 2 * |y h|
    unfold finiteSum
    simp only [exA_ent, Fin.sum_univ_two]
    norm_num
    have h0 := le_abs_self (y 0)
    have h1 := abs_nonneg (y 1)
    have h2 := neg_abs_le (y 1)
    have h3 := le_abs_self (y 1)
    nlinarith [sq_nonneg (y 0 - 2), sq_nonneg (y 1)]
  · show 1 / 2 * sqDist y ![2, 0] ≤ (∑ i : Fin 2, ((∑ c : Fin 2, exA.ent i c * y c - (![3, 1] : Fin 2 → ℝ) i) -
      (∑ c : Fin 2, exA.ent i c * (![2, 0] : Fin 2 → ℝ) c - (![3, 1] : Fin 2 → ℝ) i)) * ∑ c : Fin 2, exA.ent i c * (y c - (![2, 0] : Fin 2 → ℝ) c)) / (2 : ℕ)
    unfold sqDist
    simp only [exA_ent, Fin.sum_univ_two]
    norm_num
    nlinarith

/-- For the example the expected squared distance to `(2, 0)` after `T` inner steps is at most `(17/18)^T` times its initial value. -/
example (T : ℕ) : ∃ S, exMean.support = some S ∧ ∃ s : (Fin T → Fin 2) → SagaState ℝ 2 2,
    (∀ js, sagaEpoch exMean S (1 / 9) (sagaInit exMean) (List.ofFn fun k => (js k).val) = some (s js)) ∧
      (∑ js, sqDist (s js).x ![2, 0]) / 2 ^ T ≤ (17 / 18 : ℝ) ^ T * (4 + 12 / 81) := by
  have hg : exMean.Good := ⟨exA_good, exA_nodup, goodBlocks_eye 2⟩
  obtain ⟨S, hS, -⟩ := hg.support
  obtain ⟨s, h1, h2⟩ := C82_mean_convergence exMean hg S hS _ _ _ _ _ _ _ _ exMean_regular T
  refine ⟨S, hS, s, h1, ?_⟩
  have e1 : 1 - min (1 / (2 * ((2 : ℕ) : ℝ))) (1 / 9 * (exMean.alpha + 1 / 2)) = 17 / 18 := by
    simp only [exMean]; norm_num
  have e2 : sqDist exMean.x0 ![2, 0] + 6 * (1 / 9 : ℝ) ^ 2 * ∑ i, exMean.deriv (∑ c : Fin 2, exMean.A.ent i c * (![2, 0] : Fin 2 → ℝ) c) (exMean.b i) ^ 2 *
      ∑ c : Fin 2, exMean.A.ent i c ^ 2 = 4 + 12 / 81 := by
    unfold sqDist
    simp only [exMean, exA_ent, Fin.sum_univ_two]
    norm_num
  rw [e1, e2] at h2
  exact_mod_cast h2

end Contraction

end Copt
