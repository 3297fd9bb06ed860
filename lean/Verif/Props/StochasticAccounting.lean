import Verif.Props.AnyOrder
import Verif.Props.VrtosBounds
import Verif.Spec.EpochRun

/-! C91: what the stochastic solvers return and when they stop, and how they refuse their arguments. -/

namespace Copt

open Copt.Spec

set_option linter.unusedSectionVars false

variable {K : Type} [Field K] [LinearOrder K] [IsStrictOrderedRing K] {n p : ℕ}

/-- Any loop with the shape of the two epoch loops is an `EpochRun`. -/
theorem epoch_loop {σ : Type} (epoch : ℕ → σ → Option σ) (point : σ → Fin p → K) (tol : K) (L : ℕ → ℕ → σ → Option (VRResult K p σ))
    (hL : ∀ rem it st, L rem it st = (epoch it st).bind fun st' => if absDist (point st') (point st) < tol then some ⟨point st', true, it, st'⟩
      else match rem with
        | 0 => some ⟨point st', false, it, st'⟩
        | rem + 1 => L rem (it + 1) st') :
    ∀ (rem it : ℕ) (st : σ) (r : VRResult K p σ), L rem it st = some r → it ≤ r.nit ∧ r.x = point r.final ∧ ∃ states : ℕ → σ,
      states (r.nit - it + 1) = r.final ∧
      EpochRun (fun k => epoch (it + k)) point absDist tol (rem + 1) st states (r.nit - it) r.success := by
  intro rem
  induction rem with
  | zero =>
    intro it st r h
    rw [hL] at h
    obtain ⟨s, hs, h2⟩ := Option.bind_eq_some_iff.mp h
    by_cases hc : absDist (point s) (point st) < tol
    · rw [if_pos hc] at h2
      obtain rfl := Option.some.inj h2
      refine ⟨le_refl _, rfl, fun k => if k = 0 then st else s, by simp, ?_⟩
      refine ⟨by simp, fun k hk => ?_, by simp, fun k hk => by simp at hk, by simpa using hc, by simp⟩
      obtain rfl : k = 0 := by simpa using hk
      simpa using hs
    · rw [if_neg hc] at h2
      obtain rfl := Option.some.inj h2
      refine ⟨le_refl _, rfl, fun k => if k = 0 then st else s, by simp, ?_⟩
      refine ⟨by simp, fun k hk => ?_, by simp, fun k hk => by simp at hk, by simpa using hc, by simp⟩
      obtain rfl : k = 0 := by simpa using hk
      simpa using hs
  | succ rem ih =>
    intro it st r h
    rw [hL] at h
    obtain ⟨s, hs, h2⟩ := Option.bind_eq_some_iff.mp h
    by_cases hc : absDist (point s) (point st) < tol
    · rw [if_pos hc] at h2
      obtain rfl := Option.some.inj h2
      refine ⟨le_refl _, rfl, fun k => if k = 0 then st else s, by simp, ?_⟩
      refine ⟨by simp, fun k hk => ?_, by simp, fun k hk => by simp at hk, by simpa using hc, by simp⟩
      obtain rfl : k = 0 := by simpa using hk
      simpa using hs
    · rw [if_neg hc] at h2
      obtain ⟨h3, h4, states, h5, h6⟩ := ih (it + 1) s r h2
      obtain ⟨m, hm⟩ : ∃ m, r.nit = it + 1 + m := ⟨r.nit - (it + 1), by omega⟩
      rw [show r.nit - (it + 1) = m by omega] at h5 h6
      refine ⟨by omega, h4, fun k => if k = 0 then st else states (k - 1), ?_, ?_⟩
      · rw [show r.nit - it = m + 1 by omega]
        simpa using h5
      · rw [show r.nit - it = m + 1 by omega]
        refine ⟨by simp, fun k hk => ?_, by have := h6.bound; omega, fun k hk => ?_, by simpa using h6.success_iff, fun hf => by have := h6.exhausted hf; omega⟩
        · cases k with
          | zero => simpa [h6.start] using hs
          | succ k =>
            have := h6.step k (by omega)
            rw [show it + (k + 1) = it + 1 + k by omega]
            simpa using this
        · cases k with
          | zero => simpa [h6.start] using hc
          | succ k => simpa using h6.first k (by omega)

/-- The epoch of SVRG with the full gradient at the start of the epoch. -/
def svrgWhole (P : VRArgs K n p) (S : Support n P.blocks.nb) (step : K) (it : ℕ) (st : SvrgState K p) : Option (SvrgState K p) :=
  (fullGrad P st.x).bind fun avg => svrgEpoch P S step st.x avg st (P.order it)

theorem sagaLoop_eq (P : VRArgs K n p) (S : Support n P.blocks.nb) (step : K) (rem it : ℕ) (st : SagaState K n p) :
    sagaLoop P S step rem it st = (sagaEpoch P S step st (P.order it)).bind fun st' =>
      if absDist st'.x st.x < P.tol then some ⟨st'.x, true, it, st'⟩ else match rem with
        | 0 => some ⟨st'.x, false, it, st'⟩
        | rem + 1 => sagaLoop P S step rem (it + 1) st' := by
  conv_lhs => unfold sagaLoop
  cases rem <;> rfl

theorem svrgLoop_eq (P : VRArgs K n p) (S : Support n P.blocks.nb) (step : K) (rem it : ℕ) (st : SvrgState K p) :
    svrgLoop P S step rem it st = (svrgWhole P S step it st).bind fun st' =>
      if absDist st'.x st.x < P.tol then some ⟨st'.x, true, it, st'⟩ else match rem with
        | 0 => some ⟨st'.x, false, it, st'⟩
        | rem + 1 => svrgLoop P S step rem (it + 1) st' := by
  conv_lhs => unfold svrgLoop
  unfold svrgWhole
  rw [Option.bind_assoc]
  cases rem <;> rfl

/-- **C91 (SAGA).** Whatever data, loss, proximal routine and shuffles: when `minimize_saga` returns, it has run epochs 0, 1, … on their shuffles from
`x0` and zero memory, has stopped after the first epoch that moved the iterate by less than `tol` in absolute sum, or after `max_iter` epochs;
`success` says which, `nit` is the number of the last epoch and `x` the last iterate. -/
theorem C91_saga (P : VRArgs K n p) (r : VRResult K p (SagaState K n p)) (h : minimizeSaga P = .ok r) : ∃ S step states,
    P.support = some S ∧ P.stepSize = some step ∧ r.final = states (r.nit + 1) ∧ r.x = r.final.x ∧
      EpochRun (fun k st => sagaEpoch P S step st (P.order k)) SagaState.x absDist P.tol P.maxIter (sagaInit P) states r.nit r.success := by
  unfold minimizeSaga at h
  cases hst : P.stepSize with
  | none => rw [hst] at h; simp at h
  | some step =>
    rw [hst] at h
    simp only at h
    cases hS : P.support with
    | none => rw [hS] at h; simp [orFault, bind, Except.bind] at h
    | some S =>
      rw [hS] at h
      simp only [orFault, bind, Except.bind] at h
      split at h
      · simp at h
      · cases hm : P.maxIter with
        | zero => rw [hm] at h; simp at h
        | succ k =>
          rw [hm] at h
          simp only at h
          cases hl : sagaLoop P S step k 0 (sagaInit P) with
          | none => rw [hl] at h; simp [orFault] at h
          | some r' =>
            rw [hl] at h
            simp only [orFault, Except.ok.injEq] at h
            subst h
            obtain ⟨-, h2, states, h3, h4⟩ := epoch_loop (fun k st => sagaEpoch P S step st (P.order k)) SagaState.x P.tol
              (sagaLoop P S step) (sagaLoop_eq P S step) k 0 _ _ hl
            exact ⟨S, step, states, rfl, rfl, by simpa using h3.symm, h2, by simpa using h4⟩

/-- **C91 (SVRG).** The same for `minimize_svrg`; the correction of every epoch is the full gradient at the iterate the epoch starts from. -/
theorem C91_svrg (P : VRArgs K n p) (r : VRResult K p (SvrgState K p)) (h : minimizeSvrg P = .ok r) : ∃ S step states,
    P.support = some S ∧ P.stepSize = some step ∧ r.final = states (r.nit + 1) ∧ r.x = r.final.x ∧
      EpochRun (fun k st => (fullGrad P st.x).bind fun avg => svrgEpoch P S step st.x avg st (P.order k)) SvrgState.x absDist P.tol P.maxIter
        { x := P.x0, tmp := fun _ => 0 } states r.nit r.success := by
  unfold minimizeSvrg at h
  cases hst : P.stepSize with
  | none => rw [hst] at h; simp at h
  | some step =>
    rw [hst] at h
    simp only at h
    cases hS : P.support with
    | none => rw [hS] at h; simp [orFault, bind, Except.bind] at h
    | some S =>
      rw [hS] at h
      simp only [orFault, bind, Except.bind] at h
      split at h
      · simp at h
      · cases hm : P.maxIter with
        | zero => rw [hm] at h; simp at h
        | succ k =>
          rw [hm] at h
          simp only at h
          cases hl : svrgLoop P S step k 0 { x := P.x0, tmp := fun _ => 0 } with
          | none => rw [hl] at h; simp [orFault] at h
          | some r' =>
            rw [hl] at h
            simp only [orFault, Except.ok.injEq] at h
            subst h
            obtain ⟨-, h2, states, h3, h4⟩ := epoch_loop (svrgWhole P S step) SvrgState.x P.tol
              (svrgLoop P S step) (svrgLoop_eq P S step) k 0 _ _ hl
            exact ⟨S, step, states, rfl, rfl, by simpa using h3.symm, h2, by
              simp only [Nat.zero_add, Nat.sub_zero] at h4
              exact h4⟩

/-- **C91 (VRTOS).** `minimize_vrtos` never looks at `tol`: when it returns it has run the warm-up step on sample 0 and then exactly `max_iter` epochs,
reports failure, and `nit + 1 = max_iter`. -/
theorem C91_vrtos (P : VrtosArgs K n p) (r : VrtosResult K n p) (h : minimizeVrtos P = .ok r) : n = P.bSize ∧ 0 ≤ P.stepSize ∧
    ∃ (S1 : Support n P.blocks1.nb) (S2 : Support n P.blocks2.nb) (states : ℕ → VrtosState K n p), P.support1 = some S1 ∧ P.support2 = some S2 ∧
      vrtosEpoch P S1 S2 (vrtosInit P) [0] = some (states 0) ∧
      (∀ k < P.maxIter, vrtosEpoch P S1 S2 (states k) (P.order k) = some (states (k + 1))) ∧
      r.final = states P.maxIter ∧ r.x = r.final.z ∧ r.callerX0 = r.final.x1 ∧ r.success = false ∧ r.nit + 1 = P.maxIter := by
  have hn : n = P.bSize := by
    by_contra hc
    unfold minimizeVrtos at h
    rw [if_pos hc] at h
    simp at h
  have hst : 0 ≤ P.stepSize := by
    by_contra hc
    unfold minimizeVrtos at h
    rw [if_neg (not_not.mpr hn), if_pos (not_le.mp hc)] at h
    simp at h
  obtain ⟨S1, S2, h1, h2, h3, h4, h5, h6, h7, h8⟩ := minimizeVrtos_ok h
  refine ⟨hn, hst, S1, S2, ?_⟩
  obtain ⟨states, h9, h10, h11⟩ : ∃ states : ℕ → VrtosState K n p, vrtosEpoch P S1 S2 (vrtosInit P) [0] = some (states 0) ∧
      (∀ k < P.maxIter, vrtosEpoch P S1 S2 (states k) (P.order k) = some (states (k + 1))) ∧ r.final = states P.maxIter := by
    have key : ∀ (m : ℕ) (fin : VrtosState K n p), vrtosEpoch P S1 S2 (vrtosInit P) (0 :: (List.range m).flatMap P.order) = some fin →
        ∃ states : ℕ → VrtosState K n p, vrtosEpoch P S1 S2 (vrtosInit P) [0] = some (states 0) ∧
          (∀ k < m, vrtosEpoch P S1 S2 (states k) (P.order k) = some (states (k + 1))) ∧ fin = states m := by
      intro m
      induction m with
      | zero =>
        intro fin hf
        exact ⟨fun _ => fin, by simpa using hf, fun k hk => by omega, rfl⟩
      | succ m ih =>
        intro fin hf
        rw [List.range_succ, List.flatMap_append, ← List.cons_append, vrtosEpoch_append] at hf
        obtain ⟨s, hs, hf2⟩ := Option.bind_eq_some_iff.mp hf
        obtain ⟨states, g1, g2, g3⟩ := ih s hs
        refine ⟨fun k => if k ≤ m then states k else fin, by simpa using g1, fun k hk => ?_, by simp⟩
        by_cases hkm : k < m
        · simp only [if_pos (show k ≤ m by omega), if_pos (show k + 1 ≤ m by omega)]
          exact g2 k hkm
        · obtain rfl : k = m := by omega
          simp only [le_refl, if_true, if_neg (show ¬k + 1 ≤ k by omega), ← g3]
          simpa using hf2
    exact key _ _ h4
  exact ⟨states, h1, h2, h9, h10, h11, h5, h8, h6, by omega⟩

/-! ### Arguments that are refused -/

/-- C91: without a step size both solvers raise ValueError, whatever the other arguments (the docstrings, randomized.py:90-92 and 255-257, say the
step size is then estimated). -/
theorem C91_no_step (P : VRArgs K n p) (h : P.stepSize = none) : minimizeSaga P = .error .valueError ∧ minimizeSvrg P = .error .valueError := by
  unfold minimizeSaga minimizeSvrg
  rw [h]
  exact ⟨rfl, rfl⟩

/-- C91: targets of another length than the data are refused by an assertion. -/
theorem C91_vrtos_shape (P : VrtosArgs K n p) (h : n ≠ P.bSize) : minimizeVrtos P = .error .assertionError := by
  unfold minimizeVrtos
  rw [if_pos h]

/-- C91: a negative step size is refused. -/
theorem C91_vrtos_step (P : VrtosArgs K n p) (hn : n = P.bSize) (h : P.stepSize < 0) : minimizeVrtos P = .error .valueError := by
  unfold minimizeVrtos
  rw [if_neg (not_not.mpr hn), if_pos h]

/-- The support matrix is empty exactly when the data store nothing. -/
theorem support_empty_iff {A : CsrMat K n p} {B : BlockMat} (hG : GoodCsr p A.indptr A.indices) (hB : GoodBlocks B p) {S : Support n B.nb}
    (hS : SupportOk A hB S) : S.bs = [] ↔ ∀ (i : Fin n) (c : ℕ), ¬StoresAt A.indptr A.indices i c := by
  classical
  constructor
  · intro h i c hc
    have hcp : c < p := by
      obtain ⟨j, -, -, rfl⟩ := hc
      exact hG.col_lt j
    have h1 := (hS.weight (K := K) (i := i) (h := hB.of ⟨c, hcp⟩) ⟨c, hc, hB.of_spec ⟨c, hcp⟩⟩).1
    rw [← hS.count, h] at h1
    simp at h1
  · intro h
    rw [List.eq_nil_iff_forall_not_mem]
    intro a ha
    have h1 : S.bs.count a = touchCount A B.ptr ⟨a, hS.mem a ha⟩ := hS.count ⟨a, hS.mem a ha⟩
    have h2 : 0 < S.bs.count a := List.count_pos_iff.mpr ha
    rw [h1] at h2
    unfold touchCount at h2
    obtain ⟨i, hi⟩ := Finset.card_pos.mp h2
    obtain ⟨c, hc, -⟩ := (Finset.mem_filter.mp hi).2
    exact h i c hc

theorem sagaEpoch_prox_total (P : VRArgs K n p) (hP : P.Good) {S : Support n P.blocks.nb} (hok : SupportOk P.A hP.blocks S) {step : K} (hstep : 0 ≤ step)
    (hprox : TotalProx P.blocks.nb P.prox) : ∀ (idx : List ℕ) (st : SagaState K n p), (∀ k ∈ idx, k < n) → st.tmp = (fun _ => 0) →
      ∃ st', sagaEpoch P S step st idx = some st' ∧ st'.tmp = fun _ => 0 := by
  intro idx
  induction idx with
  | nil => exact fun st _ h => ⟨st, rfl, h⟩
  | cons k idx ih =>
    intro st hk ht
    have hkn : k < n := hk k (by simp)
    obtain ⟨hs, hr, h1⟩ := sagaStep_spec P hP hok step st ht ⟨k, hkn⟩
    obtain ⟨hs', hr', hnd, hlt, hmem⟩ := hok.row ⟨k, hkn⟩
    rw [hr] at hr'
    obtain rfl := Option.some.inj hr'
    obtain ⟨u, hu⟩ := hprox _ (supWeights n S.bs) step hs (sagaMid P hP step st ⟨k, hkn⟩) (supWeights_nonneg n S.bs) hstep hnd
      (fun h hh => ⟨hlt h hh, listed_lt_width hok hlt hmem h hh⟩)
    rw [hu, Option.bind_some] at h1
    obtain ⟨st', h2, h3⟩ := ih (SagaState.mk u (Function.update st.mem ⟨k, hkn⟩ (P.gi st.x ⟨k, hkn⟩))
        (fun c => st.avg c + (P.gi st.x ⟨k, hkn⟩ - st.mem ⟨k, hkn⟩) * P.A.ent ⟨k, hkn⟩ c / (n : K)) fun _ => 0)
      (fun q hq => hk q (by simp [hq])) rfl
    refine ⟨st', ?_, h3⟩
    unfold sagaEpoch at h2 ⊢
    rw [List.foldlM_cons, h1]
    exact h2

theorem svrgEpoch_prox_total (P : VRArgs K n p) (hP : P.Good) {S : Support n P.blocks.nb} (hok : SupportOk P.A hP.blocks S) {step : K} (hstep : 0 ≤ step)
    (hprox : TotalProx P.blocks.nb P.prox) (snap avg : Fin p → K) : ∀ (idx : List ℕ) (st : SvrgState K p), (∀ k ∈ idx, k < n) →
      ∃ st', svrgEpoch P S step snap avg st idx = some st' := by
  intro idx
  induction idx with
  | nil => exact fun st _ => ⟨st, rfl⟩
  | cons k idx ih =>
    intro st hk
    have hkn : k < n := hk k (by simp)
    obtain ⟨hs, hr, tmp, mid, h1, -⟩ := svrgStep_spec P hP hok step snap avg st ⟨k, hkn⟩
    obtain ⟨hs', hr', hnd, hlt, hmem⟩ := hok.row ⟨k, hkn⟩
    rw [hr] at hr'
    obtain rfl := Option.some.inj hr'
    obtain ⟨u, hu⟩ := hprox _ (supWeights n S.bs) step hs mid (supWeights_nonneg n S.bs) hstep hnd
      (fun h hh => ⟨hlt h hh, listed_lt_width hok hlt hmem h hh⟩)
    rw [hu, Option.bind_some] at h1
    obtain ⟨st', h2⟩ := ih { x := u, tmp := tmp } (fun q hq => hk q (by simp [hq]))
    refine ⟨st', ?_⟩
    unfold svrgEpoch at h2 ⊢
    rw [List.foldlM_cons, h1]
    exact h2

/-- A loop whose epochs never fail returns. -/
theorem epoch_loop_total {σ : Type} (epoch : ℕ → σ → Option σ) (point : σ → Fin p → K) (tol : K) (L : ℕ → ℕ → σ → Option (VRResult K p σ))
    (hL : ∀ rem it st, L rem it st = (epoch it st).bind fun st' => if absDist (point st') (point st) < tol then some ⟨point st', true, it, st'⟩
      else match rem with
        | 0 => some ⟨point st', false, it, st'⟩
        | rem + 1 => L rem (it + 1) st') (I : σ → Prop) (hI : ∀ it st, I st → ∃ st', epoch it st = some st' ∧ I st') :
    ∀ (rem it : ℕ) (st : σ), I st → ∃ r, L rem it st = some r := by
  intro rem
  induction rem with
  | zero =>
    intro it st h
    obtain ⟨st', h1, -⟩ := hI it st h
    rw [hL, h1, Option.bind_some]
    split
    · exact ⟨_, rfl⟩
    · exact ⟨_, rfl⟩
  | succ rem ih =>
    intro it st h
    obtain ⟨st', h1, h2⟩ := hI it st h
    rw [hL, h1, Option.bind_some]
    split
    · exact ⟨_, rfl⟩
    · exact ih (it + 1) st' h2

/-- **C91 (the outcome is decided by the arguments).** On well-formed data, for a step size that is not negative, a proximal routine that stays inside
its arrays and shuffles of the samples: both solvers raise ValueError when the data store no entry at all, UnboundLocalError when `max_iter` is 0, and
return a result in every other case; no access is ever out of range. -/
theorem C91_outcome (P : VRArgs K n p) (hP : P.Good) (step : K) (hst : P.stepSize = some step) (hstep : 0 ≤ step)
    (hprox : TotalProx P.blocks.nb P.prox) (hord : ∀ it, ∀ k ∈ P.order it, k < n) :
    ((∀ (i : Fin n) (c : ℕ), ¬StoresAt P.A.indptr P.A.indices i c) → minimizeSaga P = .error .valueError ∧ minimizeSvrg P = .error .valueError) ∧
    ((∃ (i : Fin n) (c : ℕ), StoresAt P.A.indptr P.A.indices i c) →
      (P.maxIter = 0 → minimizeSaga P = .error .unboundLocalError ∧ minimizeSvrg P = .error .unboundLocalError) ∧
      (0 < P.maxIter → (∃ r, minimizeSaga P = .ok r) ∧ ∃ r, minimizeSvrg P = .ok r)) := by
  obtain ⟨S, hS, hok⟩ := hP.support
  have hiff := support_empty_iff hP.csr hP.blocks hok
  unfold minimizeSaga minimizeSvrg
  rw [hst]
  simp only [hS, orFault, bind, Except.bind]
  refine ⟨fun h => ?_, fun h => ?_⟩
  · rw [if_pos (hiff.mpr h), if_pos (hiff.mpr h)]
    exact ⟨rfl, rfl⟩
  · have hne : S.bs ≠ [] := fun hc => by
      obtain ⟨i, c, hic⟩ := h
      exact hiff.mp hc i c hic
    rw [if_neg hne, if_neg hne]
    refine ⟨fun hm => by rw [hm]; exact ⟨rfl, rfl⟩, fun hm => ?_⟩
    obtain ⟨k, hk⟩ : ∃ k, P.maxIter = k + 1 := ⟨P.maxIter - 1, by omega⟩
    rw [hk]
    obtain ⟨r1, h1⟩ := epoch_loop_total (fun k st => sagaEpoch P S step st (P.order k)) SagaState.x P.tol (sagaLoop P S step) (sagaLoop_eq P S step)
      (fun st => st.tmp = fun _ => 0) (fun it st h => sagaEpoch_prox_total P hP hok hstep hprox _ st (hord it) h) k 0 (sagaInit P) rfl
    obtain ⟨r2, h2⟩ := epoch_loop_total (svrgWhole P S step) SvrgState.x P.tol (svrgLoop P S step) (svrgLoop_eq P S step) (fun _ => True)
      (fun it st _ => by
        obtain ⟨st', h⟩ := svrgEpoch_prox_total P hP hok hstep hprox st.x _ (P.order it) st (hord it)
        exact ⟨st', by unfold svrgWhole; rw [fullGrad_spec P hP.csr, Option.bind_some]; exact h, trivial⟩) k 0 { x := P.x0, tmp := fun _ => 0 } trivial
    exact ⟨⟨r1, by simp only [h1]⟩, ⟨r2, by simp only [h2]⟩⟩

/-! ### Concrete cases -/

/-- The example run meets the hypotheses and returns after two epochs without meeting the tolerance. -/
example : (∃ r, minimizeSaga exSaga = .ok r ∧ r.nit = 1 ∧ r.success = false) ∧ ∃ r, minimizeSvrg exSaga = .ok r ∧ r.nit = 1 ∧ r.success = false := by
  constructor
  · have h : (match minimizeSaga exSaga with
      | .ok r => decide (r.nit = 1 ∧ r.success = false)
      | .error _ => false) = true := by decide +kernel
    cases hr : minimizeSaga exSaga with
    | error e => rw [hr] at h; simp at h
    | ok r => rw [hr] at h; exact ⟨r, rfl, of_decide_eq_true h⟩
  · have h : (match minimizeSvrg exSaga with
      | .ok r => decide (r.nit = 1 ∧ r.success = false)
      | .error _ => false) = true := by decide +kernel
    cases hr : minimizeSvrg exSaga with
    | error e => rw [hr] at h; simp at h
    | ok r => rw [hr] at h; exact ⟨r, rfl, of_decide_eq_true h⟩

example : (∃ r, minimizeSaga exSaga = .ok r) ∧ ∃ r, minimizeSvrg exSaga = .ok r :=
  ((C91_outcome exSaga exSaga_good (1 / 4) rfl (by norm_num) (fun _ _ _ _ v _ _ _ _ => ⟨v, rfl⟩)
    (fun _ k hk => by simp [exSaga] at hk; omega)).2 ⟨0, 0, ⟨0, by decide⟩, by decide, by decide, rfl⟩).2 (by decide)

/-- With a generous tolerance the run stops after the first epoch and reports success. -/
example : ∃ r, minimizeSaga { exSaga with tol := 100 } = .ok r ∧ r.nit = 0 ∧ r.success = true := by
  have h : (match minimizeSaga { exSaga with tol := 100 } with
    | .ok r => decide (r.nit = 0 ∧ r.success = true)
    | .error _ => false) = true := by decide +kernel
  cases hr : minimizeSaga { exSaga with tol := 100 } with
  | error e => rw [hr] at h; simp at h
  | ok r => rw [hr] at h; exact ⟨r, rfl, of_decide_eq_true h⟩

end Copt
