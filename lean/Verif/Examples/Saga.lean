import Verif.Props.SagaContraction
import Verif.Props.LocalPenalties
import Verif.Props.Svrg
import Verif.Props.VRObjects
import Verif.Props.StochasticAccounting

/-!
Instances of the conditional theorems about SAGA and SVRG (C56 to C60, C82, C91): each `example` below discharges every hypothesis of one theorem on a concrete,
non-trivial problem and reads off the conclusion. The problems are `exSaga` (rows `(1, 2, 0)` and `(0, 1, 0)`, squared loss, no penalty) and `exMean`
(rows `(1, 0)` and `(0, 1)`, labels 3 and 1, squared loss, penalty `|x_0|/2 + |x_1|/2`, solution `(2, 0)`).
-/

set_option linter.unusedSectionVars false

namespace Copt
open Spec

theorem exMean_good : exMean.Good := ⟨exA_good, exA_nodup, goodBlocks_eye 2⟩

theorem sq_half_deriv (t b : ℝ) : HasDerivAt (fun s => (s - b) ^ 2 / 2) (t - b) t := by
  have := ((hasDerivAt_id t).sub_const b).fun_pow 2 |>.div_const 2
  simpa using this

theorem exA_touches (h : Fin 2) : Touches exA.indptr exA.indices (BlockMat.eye 2).ptr h h :=
  ⟨h.val, ⟨h, by fin_cases h <;> simp [exA], by fin_cases h <;> simp [exA], by fin_cases h <;> simp [exA]⟩, le_refl _, Nat.lt_succ_self _⟩

/-- C56: the support matrix of two rows over four features in three blocks. -/
example : ∃ S : Support 2 3, supportMatrix (![3, 1, 2, 0, 3] : Fin 5 → ℕ) (![0, 3, 5] : Fin 3 → ℕ) (![0, 1, 1, 2] : Fin 4 → ℕ) 3 = some S ∧
    ∀ i : Fin 2, ∃ hs : List ℕ, S.row i = some hs ∧ hs.Nodup := by
  have hG : GoodCsr 4 (![0, 3, 5] : Fin 3 → ℕ) (![3, 1, 2, 0, 3] : Fin 5 → ℕ) := by
    refine ⟨?_, ?_, ?_⟩ <;> decide
  obtain ⟨S, h1, -, h2⟩ := C56_support_matrix _ _ (![0, 1, 1, 2] : Fin 4 → ℕ) hG (nb := 3) (by decide)
  exact ⟨S, h1, fun i => by obtain ⟨hs, a, b, -⟩ := h2 i; exact ⟨hs, a, b⟩⟩

/-- C56: an epoch that visits sample 1 twice stays within the arrays. -/
example : ∃ S st, exMean.support = some S ∧ sagaEpoch exMean S (1 / 9) (sagaInit exMean) [1, 0, 1] = some st := by
  obtain ⟨S, hS, -⟩ := exMean_good.support
  obtain ⟨st, h⟩ := C56_saga_in_bounds exMean exMean_good S hS (l1Pen (1 / 2)) exMean_regular.prox (1 / 9) (by norm_num) [1, 0, 1] (by simp)
  exact ⟨S, st, hS, h⟩

/-- C57: after visiting 1, 0, 1 the stored value of sample 1 is its derivative at the state before the last step. -/
example : ∃ S st s, exSaga.support = some S ∧ sagaEpoch exSaga S (1 / 4) (sagaInit exSaga) [1, 0, 1] = some st ∧
    sagaEpoch exSaga S (1 / 4) (sagaInit exSaga) [1, 0] = some s ∧ st.mem 1 = exSaga.deriv (∑ c : Fin 3, exSaga.A.ent 1 c * s.x c) (exSaga.b 1) := by
  obtain ⟨S, hS, -⟩ := exSaga_good.support
  obtain ⟨st, hst⟩ := C56_saga_in_bounds exSaga exSaga_good S hS _ (noProx_isBlockProx 3) (1 / 4) (by norm_num) [1, 0, 1] (by simp)
  obtain ⟨-, -, -, h⟩ := C57_saga_memory exSaga exSaga_good S hS _ _ _ hst
  obtain ⟨s, h1, h2⟩ := h 1 [1, 0] [] rfl (by simp)
  exact ⟨S, st, s, hS, hst, h1, h2⟩

/-- C57, C58: the run of `exSaga` returns, its average gradient is the mean of the stored ones, and feature 2, touched by no sample, keeps its value 7. -/
example : ∃ r, minimizeSaga exSaga = .ok r ∧ (∀ c : Fin 3, r.final.avg c = (∑ i, r.final.mem i * exSaga.A.ent i c) / (2 : ℕ)) ∧ r.x 2 = 7 := by
  have h := ((C91_outcome exSaga exSaga_good (1 / 4) rfl (by norm_num) (fun _ _ _ _ v _ _ _ _ => ⟨v, rfl⟩) (fun _ k hk => by simp [exSaga] at hk; omega)).2
    ⟨0, 0, ⟨0, by decide⟩, by decide, by decide, rfl⟩).2 (by simp [exSaga])
  obtain ⟨⟨r, hr⟩, -⟩ := h
  refine ⟨r, hr, (C57_minimize_saga exSaga exSaga_good r hr).2.2.1, ?_⟩
  refine C58_never_touched exSaga exSaga_good (noProx_localProx _) r hr 2 ?_
  rintro i h ⟨h1, h2⟩ ⟨c, ⟨j, -, -, h5⟩, h3, h4⟩
  change Fin 3 at j
  have e1 : h.val = 2 := by
    have a : h.val ≤ 2 := h1
    have b : 2 < h.val + 1 := h2
    omega
  have e2 : c = 2 := by
    have a : h.val ≤ c := h3
    have b : c < h.val + 1 := h4
    omega
  subst e2
  fin_cases j <;> simp [exSaga] at h5

/-- C58: from the initial state of `exSaga` the mean step is the gradient step in the features that occur. -/
example : ∃ S, ∃ s : Fin 2 → SagaState ℚ 2 3, exSaga.support = some S ∧ (∀ i : Fin 2, sagaStep exSaga S (1 / 4) (sagaInit exSaga) i = some (s i)) ∧
    (∑ i, ((s i).x 0 - exSaga.x0 0)) / (2 : ℕ) = -(1 / 4 * finiteSumGrad (fun i c => exSaga.A.ent i c) exSaga.b exSaga.deriv exSaga.alpha exSaga.x0 0) := by
  obtain ⟨S, hS, -⟩ := exSaga_good.support
  obtain ⟨s, h1, h2⟩ := C58_unbiased exSaga exSaga_good S hS (1 / 4) (sagaInit exSaga) (fun c => by simp [sagaInit]) (fun c => rfl) rfl
  exact ⟨S, s, hS, h1, h2 0 ⟨0, (0 : Fin 3), ⟨le_refl _, Nat.lt_succ_self _⟩, 0, ⟨⟨0, by decide⟩, by decide, by decide, rfl⟩, le_refl _, Nat.lt_succ_self _⟩⟩

/-- C58: a step on sample 1 of `exMean` leaves feature 0 alone. -/
example : ∃ S st, exMean.support = some S ∧ sagaStep exMean S (1 / 9) (sagaInit exMean) 1 = some st ∧ st.x 0 = 0 := by
  obtain ⟨S, hS, -⟩ := exMean_good.support
  obtain ⟨s, h1, -⟩ := C82_mean_contraction exMean exMean_good S hS _ _ _ _ _ _ _ _ exMean_regular (sagaInit exMean) (fun c => by simp [sagaInit]) (fun c => rfl)
  refine ⟨S, s 1, hS, h1 1, ?_⟩
  refine (C58_local exMean exMean_good S hS (1 / 9) (sagaInit exMean) _ (fun _ => rfl) (C58_l1_local _) 1 (h1 1) 0 ?_).trans rfl
  rintro h ⟨h1, h2⟩ ⟨c, ⟨j, h6, h7, h5⟩, h3, h4⟩
  change Fin 2 at j
  have e1 : h.val = 0 := by
    have a : h.val ≤ 0 := h1
    omega
  have e2 : c = 0 := by
    have b : c < h.val + 1 := h4
    omega
  subst e2
  fin_cases j <;> simp [exMean, exA] at h5 h6 h7

/-- C58: the step of `exMean` on sample 0 is the proximal operator applied to the step without it. -/
example : ∃ S w, exMean.support = some S ∧ sagaStep { exMean with prox := noProx } S (1 / 9) (sagaInit exMean) (0 : Fin 2) = some w := by
  obtain ⟨S, hS, -⟩ := exMean_good.support
  obtain ⟨s, h1, -⟩ := C82_mean_contraction exMean exMean_good S hS _ _ _ _ _ _ _ _ exMean_regular (sagaInit exMean) (fun c => by simp [sagaInit]) (fun c => rfl)
  have h := C58_prox_argument exMean exMean_good S hS (1 / 9) (sagaInit exMean) (fun _ => rfl) 0
  rw [h1 0] at h
  obtain ⟨w, hw, -⟩ := Option.bind_eq_some_iff.mp h.symm
  exact ⟨S, w, hS, hw⟩

/-- C59: at the solution with the matching memory no step moves, and the fixed point satisfies the optimality inequality against every point that
differs in feature 0. -/
example (t : ℝ) : 1 / 2 * |(2 : ℝ)| ≤ 1 / 2 * |t| + (-1 / 2) * (t - 2) := by
  have hfix := C59_minimiser_fixed exMean exMean_good
  obtain ⟨S, hS, -⟩ := exMean_good.support
  set st : SagaState ℝ 2 2 := { x := ![2, 0], mem := ![-1, -1], avg := ![-1 / 2, -1 / 2], tmp := fun _ => 0 }
  have havg : ∀ c : Fin 2, st.avg c = (∑ i, st.mem i * exMean.A.ent i c) / ((2 : ℕ) : ℝ) := by
    intro c
    show (![-1 / 2, -1 / 2] : Fin 2 → ℝ) c = (∑ i, (![-1, -1] : Fin 2 → ℝ) i * exA.ent i c) / ((2 : ℕ) : ℝ)
    simp only [exA_ent, Fin.sum_univ_two]
    fin_cases c <;> norm_num
  have hmem : ∀ i : Fin 2, st.mem i = exMean.deriv (∑ c : Fin 2, exMean.A.ent i c * st.x c) (exMean.b i) := by
    intro i
    show (![-1, -1] : Fin 2 → ℝ) i = (∑ c : Fin 2, exA.ent i c * (![2, 0] : Fin 2 → ℝ) c) - (![3, 1] : Fin 2 → ℝ) i
    simp only [exA_ent, Fin.sum_univ_two]
    fin_cases i <;> norm_num
  have h0 : ∀ i : Fin 2, sagaStep exMean S (1 / 9) st i = some st := fun i =>
    C59_minimiser_fixed exMean exMean_good S hS _ exMean_regular.penalty exMean_regular.prox _ exMean_regular.deriv (1 / 9) (by norm_num) st havg (fun _ => rfl)
      hmem exMean_regular.opt i
  have h := C59_fixed_optimal exMean exMean_good S hS _ exMean_regular.penalty exMean_regular.prox (1 / 9) (by norm_num) st havg (fun _ => rfl) hmem
    (fun i st' h => by rw [h0 i] at h; rw [Option.some.inj h]) 0 (0 : Fin 2) (exA_touches 0) ![t, 0] (fun c hc => by
      fin_cases c
      · exact absurd ⟨le_refl _, Nat.lt_succ_self _⟩ hc
      · rfl)
  have e : dot (finiteSumGrad (fun i (c : Fin 2) => exMean.A.ent i c) exMean.b exMean.deriv exMean.alpha st.x) (![t, 0] - st.x) = (-1 / 2) * (t - 2) := by
    show dot (finiteSumGrad (fun i (c : Fin 2) => exA.ent i c) ![3, 1] (fun t b => t - b) 0 ![2, 0]) (![t, 0] - ![2, 0]) = _
    unfold dot finiteSumGrad
    simp only [exA_ent, Fin.sum_univ_two]
    norm_num
  rw [e] at h
  exact h

theorem goodGroups_pair : GoodGroups [[0, 1]] := by
  refine ⟨fun g hg => ?_, by simp⟩
  obtain rfl := List.mem_singleton.mp hg
  exact ⟨by simp, 0, rfl⟩

/-- C59, group lasso: labels 3 and 4, one group `{0, 1}` with weight 3; the solution is 0 and the state with the memory of 0 does not move. -/
example : ∃ B : BlockState 2, GroupL1.blocks [[0, 1]] 2 = some B ∧
    let P : VRArgs ℝ 2 2 :=
      { A := exA, b := ![3, 4], deriv := fun t b => t - b, alpha := 0, x0 := ![0, 0], stepSize := some (1 / 3), blocks := B.mat,
        prox := GroupL1.sparse 3 B, maxIter := 5, tol := 0, order := fun _ => [0, 1] }
    ∃ S, P.support = some S ∧ ∀ i : Fin 2, sagaStep P S (1 / 3) { x := ![0, 0], mem := ![-3, -4], avg := ![-3 / 2, -2], tmp := fun _ => 0 } i =
      some { x := ![0, 0], mem := ![-3, -4], avg := ![-3 / 2, -2], tmp := fun _ => 0 } := by
  have hG := goodGroups_pair
  have hn : ∀ g ∈ ([[0, 1]] : List (List ℕ)), ∀ i ∈ g, i < 2 := by decide
  obtain ⟨B, hB, S, hS, h⟩ := C59_group_fixed exA exA_good exA_nodup ![3, 4] (fun t b => (t - b) ^ 2 / 2) (fun t b => t - b) sq_half_deriv 0 3 (1 / 3)
    (by norm_num) (by norm_num) [[0, 1]] hG hn ![0, 0] 5 0 (fun _ => [0, 1])
  refine ⟨B, hB, S, hS, h _ ?_ (fun _ => rfl) ?_ ?_⟩
  · intro c
    simp only [exA_ent, Fin.sum_univ_two]
    fin_cases c <;> norm_num
  · intro i
    simp only [exA_ent, Fin.sum_univ_two]
    fin_cases i <;> norm_num
  · intro y
    obtain ⟨B', hB', hI, -⟩ := GroupL1.blocks_inv hG hn
    rw [hB] at hB'
    obtain rfl := Option.some.inj hB'
    rw [groupBlock_sum hG hI, groupBlock_sum hG hI]
    have e : (featSet [0, 1] : Finset (Fin 2)) = Finset.univ := by decide
    unfold finiteSum blockNorm
    simp only [exA_ent, Fin.sum_univ_two, List.map_cons, List.map_nil, List.sum_cons, List.sum_nil, e]
    norm_num
    set r := √(y 0 ^ 2 + y 1 ^ 2)
    have hr : r ^ 2 = y 0 ^ 2 + y 1 ^ 2 := Real.sq_sqrt (by positivity)
    have hr0 : 0 ≤ r := Real.sqrt_nonneg _
    have hcs : 3 * y 0 + 4 * y 1 ≤ 5 * r := by
      refine abs_le_of_sq_le_sq' ?_ (by positivity) |>.2
      nlinarith [sq_nonneg (4 * y 0 - 3 * y 1)]
    nlinarith

/-- C60: the snapshot gradient of `exSaga` exists and is the gradient of the finite sum; from the snapshot `x0` and a state with any buffer the mean step
is the gradient step in feature 0. -/
example : ∃ S avg, ∃ s : Fin 2 → SvrgState ℚ 3, exSaga.support = some S ∧ fullGrad exSaga exSaga.x0 = some avg ∧
    (∀ i : Fin 2, svrgStep exSaga S (1 / 4) exSaga.x0 avg { x := ![5, 0, 7], tmp := ![9, 0, 0] } i = some (s i)) ∧
    (∑ i, ((s i).x 0 - 5)) / (2 : ℕ) = -(1 / 4 * finiteSumGrad (fun i c => exSaga.A.ent i c) exSaga.b exSaga.deriv exSaga.alpha ![5, 0, 7] 0) := by
  obtain ⟨S, hS, -⟩ := exSaga_good.support
  have hfull := C60_full_grad exSaga exSaga_good.csr exSaga.x0
  obtain ⟨s, h1, h2⟩ := C60_unbiased_single_partial exSaga exSaga_good rfl S hS (1 / 4) exSaga.x0 _ hfull { x := ![5, 0, 7], tmp := ![9, 0, 0] } rfl
  obtain ⟨s', h1', h2'⟩ := C60_unbiased_partial exSaga exSaga_good S hS (1 / 4) exSaga.x0 _ hfull { x := ![5, 0, 7], tmp := ![9, 0, 0] } rfl
  exact ⟨S, _, s, hS, hfull, h1, h2 0 ⟨0, ⟨0, by decide⟩, by decide, by decide, rfl⟩⟩

/-- C82: one step from the start of `exMean`. -/
example : ∃ S, ∃ s : Fin 2 → SagaState ℝ 2 2, exMean.support = some S ∧ (∀ i : Fin 2, sagaStep exMean S (1 / 9) (sagaInit exMean) i = some (s i)) ∧
    (∑ i, sagaLyap exMean (1 / 9) ![2, 0] (s i)) / (2 : ℕ) ≤ 17 / 18 * sagaLyap exMean (1 / 9) ![2, 0] (sagaInit exMean) := by
  obtain ⟨S, hS, -⟩ := exMean_good.support
  obtain ⟨s, h1, h2⟩ := C82_mean_contraction exMean exMean_good S hS _ _ _ _ _ _ _ _ exMean_regular (sagaInit exMean) (fun c => by simp [sagaInit]) (fun c => rfl)
  refine ⟨S, s, hS, h1, ?_⟩
  have e1 : 1 - min (1 / (2 * ((2 : ℕ) : ℝ))) (1 / 9 * (exMean.alpha + 1 / 2)) = 17 / 18 := by
    simp only [exMean]; norm_num
  rwa [e1] at h2

/-- C91: the two runs of `exSaga` follow their epochs. -/
example : (∃ r S, ∃ states : ℕ → SagaState ℚ 2 3, minimizeSaga exSaga = .ok r ∧ exSaga.support = some S ∧ r.x = (states (r.nit + 1)).x) ∧
    ∃ r S, ∃ states : ℕ → SvrgState ℚ 3, minimizeSvrg exSaga = .ok r ∧ exSaga.support = some S ∧ r.x = (states (r.nit + 1)).x := by
  obtain ⟨⟨r, hr⟩, ⟨r', hr'⟩⟩ := ((C91_outcome exSaga exSaga_good (1 / 4) rfl (by norm_num) (fun _ _ _ _ v _ _ _ _ => ⟨v, rfl⟩)
    (fun _ k hk => by simp [exSaga] at hk; omega)).2 ⟨0, 0, ⟨0, by decide⟩, by decide, by decide, rfl⟩).2 (by decide)
  obtain ⟨S, step, states, h1, -, h3, h4, -⟩ := C91_saga exSaga r hr
  obtain ⟨S', step', states', h1', -, h3', h4', -⟩ := C91_svrg exSaga r' hr'
  exact ⟨⟨r, S, states, hr, h1, by rw [h4, h3]⟩, ⟨r', S', states', hr', h1', by rw [h4', h3']⟩⟩

/-- C91: without a step size both raise. -/
example : minimizeSaga { exSaga with stepSize := none } = .error .valueError ∧ minimizeSvrg { exSaga with stepSize := none } = .error .valueError :=
  C91_no_step _ rfl

end Copt
