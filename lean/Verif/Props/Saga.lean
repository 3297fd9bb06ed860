import Verif.Proof.FiniteSum

/-! # Properties of the support matrix and of `minimize_saga` -/

set_option linter.unusedSectionVars false

namespace Copt

open Spec

/-! ### C56 -/

/-- **C56.** For every sparsity pattern and block map, row `i` of the support matrix lists exactly the blocks that contain a feature of sample `i`,
each once, in the order in which the row meets them; no access is out of range and the work array is clean at the end. -/
theorem C56_support_matrix {nnz m r nb : ℕ} (indices : Fin nnz → ℕ) (indptr : Fin (m + 1) → ℕ) (rblocks : Fin r → ℕ)
    (hG : GoodCsr r indptr indices) (hb : ∀ k, rblocks k < nb) :
    ∃ S : Support m nb, supportMatrix indices indptr rblocks nb = some S ∧ (∀ g, S.seen g = 0) ∧
      ∀ i : Fin m, ∃ hs : List ℕ, S.row i = some hs ∧ hs.Nodup ∧
        (∀ h, h ∈ hs ↔ ∃ c : Fin r, StoresAt indptr indices i c ∧ rblocks c = h) ∧
        hs.Pairwise fun h h' => ∃ j : Fin nnz, indptr i.castSucc ≤ j.val ∧ j.val < indptr i.succ ∧
          rblocks ⟨indices j, hG.col_lt j⟩ = h ∧
          ∀ k : Fin nnz, indptr i.castSucc ≤ k.val → k.val < indptr i.succ → rblocks ⟨indices k, hG.col_lt k⟩ = h' → j < k := by
  obtain ⟨S, hS, hseen, hrow, -⟩ := supportMatrix_spec (nb := nb) hG hb
  refine ⟨S, hS, hseen, fun i => ⟨_, hrow i i.isLt, firstOcc_nodup _, fun h => ?_, ?_⟩⟩
  · rw [mem_firstOcc]
    have e1 : getD0 indptr i = indptr i.castSucc := getD0_lt _ (by omega : i.val < m + 1)
    have e2 : getD0 indptr (i + 1) = indptr i.succ := getD0_lt _ (by omega : i.val + 1 < m + 1)
    unfold rowBlocks rowPos
    rw [e1, e2, List.mem_map]
    constructor
    · rintro ⟨j, hj, rfl⟩
      have hlt := row_lt hG i j hj
      have := List.mem_range'_1.mp hj
      refine ⟨⟨indices ⟨j, hlt⟩, hG.col_lt _⟩, ⟨⟨j, hlt⟩, this.1, by show j < _; omega, rfl⟩, ?_⟩
      unfold blkAt
      rw [getD0_lt indices hlt, getD0_lt rblocks (hG.col_lt _)]
    · rintro ⟨c, ⟨j, h1, h2, h3⟩, rfl⟩
      refine ⟨j.val, List.mem_range'_1.mpr (by omega), ?_⟩
      unfold blkAt
      rw [getD0_lt indices j.isLt, h3, getD0_lt rblocks c.isLt]
  · have e1 : getD0 indptr i = indptr i.castSucc := getD0_lt _ (by omega : i.val < m + 1)
    have e2 : getD0 indptr (i + 1) = indptr i.succ := getD0_lt _ (by omega : i.val + 1 < m + 1)
    have hlen : (rowBlocks indices indptr rblocks i).length = indptr i.succ - indptr i.castSucc := by
      unfold rowBlocks rowPos; rw [List.length_map, List.length_range', e1, e2]
    have hle := hG.le_nnz i.succ
    have hget : ∀ (k : Fin nnz) (hk : indptr i.castSucc ≤ k.val) (hk2 : k.val < indptr i.succ),
        (rowBlocks indices indptr rblocks i)[k.val - indptr i.castSucc]'(by rw [hlen]; omega) = rblocks ⟨indices k, hG.col_lt k⟩ := by
      intro k hk hk2
      unfold rowBlocks rowPos
      rw [List.getElem_map]
      simp only [List.getElem_range', e1]
      unfold blkAt
      have : indptr i.castSucc + 1 * (k.val - indptr i.castSucc) = k.val := by omega
      rw [this, getD0_lt indices k.isLt, getD0_lt rblocks (hG.col_lt k)]
    refine List.Pairwise.imp_of_mem ?_ (firstOcc_pairwise (rowBlocks indices indptr rblocks i))
    intro h h' hh _ hlt
    have hmem := (mem_firstOcc _ _).mp hh
    have hi := List.idxOf_lt_length_iff.mpr hmem
    have hi' := hi
    rw [hlen] at hi'
    refine ⟨⟨indptr i.castSucc + (rowBlocks indices indptr rblocks i).idxOf h, by omega⟩, by simp, by show _ + _ < _; omega, ?_, ?_⟩
    · have := hget ⟨indptr i.castSucc + (rowBlocks indices indptr rblocks i).idxOf h, by omega⟩ (by simp) (by show _ + _ < _; omega)
      rw [← this]
      simp only [Nat.add_sub_cancel_left]
      exact List.getElem_idxOf hi
    · intro k hk hk2 hk3
      rw [Fin.lt_def]
      show _ + _ < k.val
      have hle2 : (rowBlocks indices indptr rblocks i).idxOf h' ≤ k.val - indptr i.castSucc := by
        by_contra hc
        push Not at hc
        have := List.not_of_lt_findIdx (p := (· == h')) (xs := rowBlocks indices indptr rblocks i) hc
        rw [hget k hk hk2, hk3] at this
        simp at this
      omega

/-- Two samples, four features, blocks {0}, {1, 2}, {3}: the rows `3 1 2` and `0 3` touch blocks `2, 1` and `0, 2`. -/
example : (supportMatrix (![3, 1, 2, 0, 3] : Fin 5 → ℕ) (![0, 3, 5] : Fin 3 → ℕ) (![0, 1, 1, 2] : Fin 4 → ℕ) 3).bind (fun S => S.row 0) = some [2, 1] ∧
    (supportMatrix (![3, 1, 2, 0, 3] : Fin 5 → ℕ) (![0, 3, 5] : Fin 3 → ℕ) (![0, 1, 1, 2] : Fin 4 → ℕ) 3).bind (fun S => S.row 1) = some [0, 2] := by
  decide +kernel

/-! ### C57 -/

section Memory
variable {K : Type} [Field K] {n p : ℕ}

theorem sagaStep_lt {P : VRArgs K n p} {S : Support n P.blocks.nb} {step : K} {st st' : SagaState K n p} {i : ℕ}
    (h : sagaStep P S step st i = some st') : i < n := by
  by_contra hc
  unfold sagaStep at h
  have hb : rd P.b i = none := dif_neg hc
  rw [hb] at h
  cases hr : P.A.row i with
  | none => rw [hr] at h; simp at h
  | some row =>
    rw [hr] at h
    cases hd : rowDot st.x row with
    | none => simp at h
    | some d => simp at h

/-- The state of the memory after a history. -/
structure SagaMem (P : VRArgs K n p) (S : Support n P.blocks.nb) (step : K) (idx : List ℕ) (st : SagaState K n p) : Prop where
  avg : ∀ c : Fin p, st.avg c = (∑ i, st.mem i * P.A.ent i c) / (n : K)
  tmp : st.tmp = fun _ => 0
  fresh : ∀ i : Fin n, i.val ∉ idx → st.mem i = 0
  last : ∀ (i : Fin n) (pre post : List ℕ), idx = pre ++ i.val :: post → i.val ∉ post → ∃ s, sagaEpoch P S step (sagaInit P) pre = some s ∧
    st.mem i = P.deriv (∑ c : Fin p, P.A.ent i c * s.x c) (P.b i)

theorem sagaMem (P : VRArgs K n p) (hP : P.Good) {S : Support n P.blocks.nb} (hS : P.support = some S) (step : K) :
    ∀ (idx : List ℕ) (st : SagaState K n p), sagaEpoch P S step (sagaInit P) idx = some st → SagaMem P S step idx st := by
  obtain ⟨S', hS', hok⟩ := hP.support
  rw [hS] at hS'
  obtain rfl := Option.some.inj hS'
  intro idx
  induction idx using List.reverseRecOn with
  | nil =>
    intro st h
    obtain rfl := Option.some.inj h
    exact ⟨by simp [sagaInit], rfl, fun _ _ => rfl, fun i pre post h => by simp at h⟩
  | append_singleton idx k ih =>
    intro st h
    unfold sagaEpoch at h
    rw [List.foldlM_append] at h
    obtain ⟨s, hs, h2⟩ := Option.bind_eq_some_iff.mp h
    have hI := ih s hs
    simp only [List.foldlM_cons, List.foldlM_nil, Option.pure_def, Option.bind_eq_bind, Option.bind_some] at h2
    have h2' : sagaStep P S step s k = some st := by
      cases hq : sagaStep P S step s k with
      | none => rw [hq] at h2; simp at h2
      | some q => rw [hq] at h2; simpa using h2
    have hk := sagaStep_lt h2'
    obtain ⟨hs', -, hspec⟩ := sagaStep_spec P hP hok step s hI.tmp ⟨k, hk⟩
    rw [hspec] at h2'
    obtain ⟨u, -, hu⟩ := Option.bind_eq_some_iff.mp h2'
    obtain rfl := Option.some.inj hu
    refine ⟨fun c => ?_, rfl, fun i hi => ?_, fun i pre post he hpost => ?_⟩
    · show s.avg c + (P.gi s.x ⟨k, hk⟩ - s.mem ⟨k, hk⟩) * P.A.ent ⟨k, hk⟩ c / (n : K) = _
      rw [hI.avg c, ← add_div]
      congr 1
      symm
      rw [← sub_eq_iff_eq_add', ← Finset.sum_sub_distrib, Finset.sum_eq_single (⟨k, hk⟩ : Fin n)]
      · simp only [Function.update_self]; ring
      · intro j _ hj
        simp only [Function.update_of_ne hj, sub_self]
      · simp
    · show Function.update s.mem _ _ i = 0
      rw [List.mem_append, not_or] at hi
      rw [Function.update_of_ne (by rintro rfl; exact hi.2 (by simp))]
      exact hI.fresh i hi.1
    · show ∃ s', _ ∧ Function.update s.mem _ _ i = _
      rcases List.eq_nil_or_concat post with rfl | ⟨post', q, rfl⟩
      · have := List.append_inj' (he.trans (by rfl : pre ++ i.val :: [] = pre ++ [i.val])) rfl
        obtain ⟨rfl, h3⟩ := this
        simp only [List.cons.injEq, and_true] at h3
        refine ⟨s, hs, ?_⟩
        rw [show i = ⟨k, hk⟩ from Fin.ext h3.symm, Function.update_self]
        rfl
      · have h4 : idx ++ [k] = (pre ++ i.val :: post') ++ [q] := by rw [he]; simp
        obtain ⟨h5, h6⟩ := List.append_inj' h4 rfl
        simp only [List.cons.injEq, and_true] at h6
        have hne : i.val ≠ k := by
          rintro rfl
          exact hpost (by simp [h6])
        obtain ⟨s', hs', hm⟩ := hI.last i pre post' h5 (fun hc => hpost (by simp [hc]))
        refine ⟨s', hs', ?_⟩
        rw [Function.update_of_ne (fun hc => hne (by rw [hc]))]
        exact hm

/-- **C57.** For every history of sampled indices, every derivative function, block structure and proximal routine: when `_saga_epoch` has processed
the history, `gradient_average` is the average of the memory table times the rows, the scratch array is zero, a sample that was never drawn has memory
zero, and any other sample's memory is the derivative at the iterate at which it was last drawn. -/
theorem C57_saga_memory (P : VRArgs K n p) (hP : P.Good) (S : Support n P.blocks.nb) (hS : P.support = some S) (step : K) (idx : List ℕ)
    (st : SagaState K n p) (hrun : sagaEpoch P S step (sagaInit P) idx = some st) :
    (∀ c : Fin p, st.avg c = (∑ i, st.mem i * P.A.ent i c) / (n : K)) ∧ (∀ c, st.tmp c = 0) ∧ (∀ i : Fin n, i.val ∉ idx → st.mem i = 0) ∧
      ∀ (i : Fin n) (pre post : List ℕ), idx = pre ++ i.val :: post → i.val ∉ post →
        ∃ s, sagaEpoch P S step (sagaInit P) pre = some s ∧ st.mem i = P.deriv (∑ c : Fin p, P.A.ent i c * s.x c) (P.b i) := by
  have h := sagaMem P hP hS step idx st hrun
  exact ⟨h.avg, fun c => by rw [h.tmp], h.fresh, h.last⟩

theorem sagaEpoch_append (P : VRArgs K n p) (S : Support n P.blocks.nb) (step : K) (st : SagaState K n p) (a b : List ℕ) :
    sagaEpoch P S step st (a ++ b) = (sagaEpoch P S step st a).bind fun s => sagaEpoch P S step s b := by
  unfold sagaEpoch; rw [List.foldlM_append]; rfl

theorem sagaLoop_history [LinearOrder K] (P : VRArgs K n p) (S : Support n P.blocks.nb) (step : K) : ∀ (rem it : ℕ) (st : SagaState K n p)
    (r : VRResult K p (SagaState K n p)), sagaLoop P S step rem it st = some r →
    r.x = r.final.x ∧ it ≤ r.nit ∧ r.nit ≤ it + rem ∧
      sagaEpoch P S step st ((List.range' it (r.nit + 1 - it)).flatMap P.order) = some r.final := by
  intro rem
  induction rem with
  | zero =>
    intro it st r h
    unfold sagaLoop at h
    obtain ⟨s, hs, h2⟩ := Option.bind_eq_some_iff.mp h
    have hone : (List.range' it (it + 1 - it)).flatMap P.order = P.order it := by simp
    split at h2
    · obtain rfl := Option.some.inj h2
      exact ⟨rfl, le_refl _, by simp, by rw [hone]; exact hs⟩
    · obtain rfl := Option.some.inj h2
      exact ⟨rfl, le_refl _, by simp, by rw [hone]; exact hs⟩
  | succ rem ih =>
    intro it st r h
    unfold sagaLoop at h
    obtain ⟨s, hs, h2⟩ := Option.bind_eq_some_iff.mp h
    split at h2
    · obtain rfl := Option.some.inj h2
      have hone : (List.range' it (it + 1 - it)).flatMap P.order = P.order it := by simp
      exact ⟨rfl, le_refl _, by simp, by rw [hone]; exact hs⟩
    · obtain ⟨h3, h4, h5, h6⟩ := ih (it + 1) s r h2
      refine ⟨h3, by omega, by omega, ?_⟩
      rw [show r.nit + 1 - it = (r.nit + 1 - (it + 1)) + 1 by omega, List.range'_succ, List.flatMap_cons, sagaEpoch_append, hs]
      exact h6

/-- C57 for the arrays of a finished call of `minimize_saga`: the history is the concatenation of the shuffles of the epochs that were run. -/
theorem C57_minimize_saga [LinearOrder K] (P : VRArgs K n p) (hP : P.Good) (r : VRResult K p (SagaState K n p)) (h : minimizeSaga P = .ok r) :
    r.x = r.final.x ∧ r.nit < P.maxIter ∧ (∀ c : Fin p, r.final.avg c = (∑ i, r.final.mem i * P.A.ent i c) / (n : K)) ∧
      (∀ c, r.final.tmp c = 0) ∧ ∀ i : Fin n, (∀ k ≤ r.nit, i.val ∉ P.order k) → r.final.mem i = 0 := by
  unfold minimizeSaga at h
  cases hst : P.stepSize with
  | none => rw [hst] at h; simp at h
  | some step =>
    rw [hst] at h
    simp only at h
    obtain ⟨S, hS, -⟩ := hP.support
    rw [hS] at h
    simp only [orFault, bind, Except.bind] at h
    split at h
    · simp at h
    · cases hm : P.maxIter with
      | zero => rw [hm] at h; simp at h
      | succ k =>
        rw [hm] at h
        simp only at h
        cases hl : sagaLoop P S step k 0 (sagaInit P) with
        | none => rw [hl] at h; simp [orFault] at h
        | some r' =>
          rw [hl] at h
          simp only [orFault, Except.ok.injEq] at h
          subst h
          obtain ⟨h1, -, h3, h4⟩ := sagaLoop_history P S step k 0 _ r' hl
          have hM := sagaMem P hP hS step _ _ h4
          refine ⟨h1, by omega, hM.avg, fun c => by rw [hM.tmp], fun i hi => hM.fresh i fun hc => ?_⟩
          obtain ⟨q, hq, hq2⟩ := List.mem_flatMap.mp hc
          have := List.mem_range'_1.mp hq
          exact hi q (by omega) hq2

end Memory

/-! A concrete run: rows `(1, 2, 0)` and `(0, 1, 0)`, squared loss, single-feature blocks; feature 2 is never touched. -/

/-- Arguments of the example. -/
def exSaga : VRArgs ℚ 2 3 :=
  { A := { nnz := 3, data := ![1, 2, 1], indices := ![0, 1, 1], indptr := ![0, 2, 3] }, b := ![1, 2], deriv := fun t b => t - b, alpha := 1 / 2,
    x0 := ![1, 0, 7], stepSize := some (1 / 4), blocks := BlockMat.eye 3, prox := noProx, maxIter := 2, tol := 1 / 1000, order := fun _ => [1, 0] }

theorem exSaga_good : exSaga.Good := by
  refine ⟨⟨?_, ?_, ?_⟩, ?_, goodBlocks_eye 3⟩
  · intro i; fin_cases i <;> simp [exSaga]
  · intro i; fin_cases i <;> simp [exSaga]
  · intro i; change Fin 3 at i; fin_cases i <;> simp [exSaga]
  · intro i j k h1 h2 h3 h4 h
    change Fin 3 at j; change Fin 3 at k
    fin_cases i <;> fin_cases j <;> fin_cases k <;> simp [exSaga] at h h1 h2 h3 h4 ⊢

example : ∃ S st, exSaga.support = some S ∧ sagaEpoch exSaga S (1 / 4) (sagaInit exSaga) [1, 0, 1] = some st ∧ st.mem 1 ≠ 0 := by
  obtain ⟨S, hS, -⟩ := exSaga_good.support
  have h : (exSaga.support.bind fun S => (sagaEpoch exSaga S (1 / 4) (sagaInit exSaga) [1, 0, 1]).map fun st => decide (st.mem 1 ≠ 0)) = some true := by
    decide +kernel
  rw [hS] at h
  obtain ⟨st, h1, h2⟩ := Option.map_eq_some_iff.mp h
  exact ⟨S, st, hS, h1, of_decide_eq_true h2⟩

end Copt
