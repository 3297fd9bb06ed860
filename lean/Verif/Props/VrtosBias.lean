import Verif.Props.VrtosBounds

/-! # VRTOS fixed points and features touched through one structure only -/

set_option linter.unusedSectionVars false

namespace Copt

open Spec

section General
variable {K : Type} [Field K] [LinearOrder K] [IsStrictOrderedRing K] {n p : ℕ}

/-- **C80 (what holds).** Full claim: `C61_fixed_optimal` for changes of features touched through at least one structure.  Proved: it holds when each
such feature is touched through both structures, in particular when the two structures are the same or no column of the data is empty.  Missing: features
touched through one structure only, where the claim is false (`C80_refuted`). -/
theorem C80_fixed_optimal_partial (P : VrtosArgs K n p) (hP : P.Good)
    (S1 : Support n P.blocks1.nb) (S2 : Support n P.blocks2.nb) (hS1 : P.support1 = some S1) (hS2 : P.support2 = some S2)
    (pen1 : Fin P.blocks1.nb → (Fin p → K) → K) (hpen1 : IsBlockPenalty P.blocks1.ptr pen1) (hprox1 : IsBlockProx pen1 P.prox1)
    (pen2 : Fin P.blocks2.nb → (Fin p → K) → K) (hpen2 : IsBlockPenalty P.blocks2.ptr pen2) (hprox2 : IsBlockProx pen2 P.prox2)
    (hstep : 0 < P.stepSize) (st : VrtosState K n p) (havg : ∀ c : Fin p, st.avg c = (∑ i, st.mem i * P.A.ent i c) / (n : K))
    (htmp : ∀ c, st.tmp c = 0) (hfix : ∀ i : Fin n, vrtosStep P S1 S2 st i = some st)
    (hboth : ∀ c : Fin p, (∃ i h, InBlock P.blocks1.ptr h c ∧ Touches P.A.indptr P.A.indices P.blocks1.ptr i h) ↔
      ∃ i h, InBlock P.blocks2.ptr h c ∧ Touches P.A.indptr P.A.indices P.blocks2.ptr i h) (y : Fin p → K)
    (hy : ∀ c, y c ≠ st.z c → (∃ i h, InBlock P.blocks1.ptr h c ∧ Touches P.A.indptr P.A.indices P.blocks1.ptr i h) ∨
      ∃ i h, InBlock P.blocks2.ptr h c ∧ Touches P.A.indptr P.A.indices P.blocks2.ptr i h) :
    (∑ h, pen1 h st.z) + ∑ h, pen2 h st.z ≤ (∑ h, pen1 h y) + (∑ h, pen2 h y) +
      dot (finiteSumGrad (fun i c => P.A.ent i c) (fun i => P.b (i.cast hP.size)) P.deriv P.alpha st.z) (y - st.z) :=
  C61_fixed_optimal P hP S1 S2 hS1 hS2 pen1 hpen1 hprox1 pen2 hpen2 hprox2 hstep st havg htmp hfix y fun c hc =>
    (hy c hc).elim (fun h => ⟨h, (hboth c).mp h⟩) fun h => ⟨(hboth c).mpr h, h⟩

end General

/-- One sample storing feature 1 of two, squared loss with target 3; structure 1 has single features and no penalty, structure 2 is the fused lasso
pair `{0, 1}` with `alpha = 1`. -/
def exBias : VrtosArgs ℚ 1 2 :=
  { A := { nnz := 1, data := ![1], indices := ![1], indptr := ![0, 1] }, bSize := 1, b := ![3], deriv := fun t b => t - b, alpha := 0, x0 := ![0, 0],
    stepSize := 1 / 2, blocks1 := BlockMat.eye 2, blocks2 := (FusedLasso.blocks1 2).mat, prox1 := noProx,
    prox2 := FusedLasso.sparse 1 (FusedLasso.blocks1 2), maxIter := 1, tol := 1 / 1000, order := fun _ => [0] }

/-- The fixed state. -/
def exBiasState : VrtosState ℚ 1 2 :=
  { y1 := ![0, 9 / 4], y2 := ![1, 7 / 4], x1 := ![0, 2], x2 := ![1 / 2, 2], z := ![1 / 2, 2], mem := ![-1], avg := ![0, -1], tmp := ![0, 0] }

theorem exBias_good : exBias.Good := by
  refine ⟨⟨?_, ?_, ?_⟩, ?_, goodBlocks_eye 2, ⟨⟨by decide, by decide, by decide⟩, rfl, fun _ => rfl⟩, rfl⟩
  · intro i; fin_cases i <;> simp [exBias]
  · intro i; fin_cases i <;> simp [exBias]
  · intro i; change Fin 1 at i; fin_cases i; simp [exBias]
  · intro i j k _ _ _ _ h
    exact Subsingleton.elim (α := Fin 1) j k

/-- **C80 is false of the code**: `exBiasState` is left unchanged by the only sample, feature 0 is touched through structure 2, and moving feature 0
from `1/2` to 2 lowers the objective `(z_1 - 3)²/2 + |z_0 - z_1|`, because `Y[0, 0]` stays 0 and pulls `z_0` towards 0. -/
theorem C80_refuted : ∃ (P : VrtosArgs ℚ 1 2) (S1 : Support 1 P.blocks1.nb) (S2 : Support 1 P.blocks2.nb) (st : VrtosState ℚ 1 2) (y : Fin 2 → ℚ),
    P.Good ∧ P.support1 = some S1 ∧ P.support2 = some S2 ∧ (∀ c : Fin 2, st.avg c = (∑ i, st.mem i * P.A.ent i c) / (1 : ℕ)) ∧ (∀ c, st.tmp c = 0) ∧
      0 < P.stepSize ∧ (∀ i : Fin 1, vrtosStep P S1 S2 st i = some st) ∧
      (∀ c, y c ≠ st.z c → ∃ i h, InBlock P.blocks2.ptr h c ∧ Touches P.A.indptr P.A.indices P.blocks2.ptr i h) ∧
      (∀ c, P.A.ent 0 c = if c = 1 then 1 else 0) ∧ P.prox1 = noProx ∧ P.prox2 = FusedLasso.sparse 1 (FusedLasso.blocks1 2) ∧
      P.deriv = (fun t b => t - b) ∧ P.alpha = 0 ∧ P.b = (fun _ => 3) ∧
      (y 1 - 3) ^ 2 / 2 + |y 0 - y 1| < (st.z 1 - 3) ^ 2 / 2 + |st.z 0 - st.z 1| := by
  obtain ⟨S1, hS1, -⟩ := exBias_good.support1
  obtain ⟨S2, hS2, -⟩ := exBias_good.support2
  have hent : ∀ c, exBias.A.ent 0 c = if c = 1 then 1 else 0 := by
    intro c
    unfold CsrMat.ent csrEntry
    show (∑ j : Fin 1, _) = _
    rw [Fin.sum_univ_one]
    by_cases h : c = 1
    · subst h; simp [exBias]
    · have : ¬(1 = c) := fun hh => h hh.symm
      simp [exBias, h, this]
  refine ⟨exBias, S1, S2, exBiasState, ![2, 2], exBias_good, hS1, hS2, ?_, ?_, by norm_num [exBias], ?_, ?_, hent, rfl, rfl, rfl, rfl, ?_, ?_⟩
  · intro c
    rw [Fin.sum_univ_one, hent]
    fin_cases c <;> norm_num [exBiasState]
  · intro c; fin_cases c <;> rfl
  · intro i
    rw [Subsingleton.elim i 0]
    have h : (exBias.support1.bind fun S1 => exBias.support2.bind fun S2 => (vrtosStep exBias S1 S2 exBiasState 0).map fun s =>
        decide (s.y1 = exBiasState.y1 ∧ s.y2 = exBiasState.y2 ∧ s.x1 = exBiasState.x1 ∧ s.x2 = exBiasState.x2 ∧ s.z = exBiasState.z ∧
          s.mem = exBiasState.mem ∧ s.avg = exBiasState.avg ∧ s.tmp = exBiasState.tmp)) = some true := by decide +kernel
    rw [hS1, hS2] at h
    simp only [Option.bind_some] at h
    obtain ⟨s, hs, hd⟩ := Option.map_eq_some_iff.mp h
    rw [decide_eq_true_eq] at hd
    obtain ⟨e1, e2, e3, e4, e5, e6, e7, e8⟩ := hd
    rw [show ((0 : Fin 1).val) = 0 from rfl, hs]
    congr 1
    cases s
    simp only at e1 e2 e3 e4 e5 e6 e7 e8
    subst e1 e2 e3 e4 e5 e6 e7 e8
    rfl
  · intro c _
    refine ⟨0, ⟨0, by decide⟩, ?_, 1, ⟨⟨0, by decide⟩, by decide, by decide, by decide⟩, by decide, by decide⟩
    fin_cases c
    · exact ⟨by decide, by decide⟩
    · exact ⟨by decide, by decide⟩
  · funext i
    change Fin 1 at i
    fin_cases i
    rfl
  · norm_num [exBiasState]

/-- A state that satisfies the hypotheses of `C61_fixed_optimal`: `exVrtos 1` at its solution `z = 1`. -/
example : ∃ (S1 : Support 1 (exVrtos 1).blocks1.nb) (S2 : Support 1 (exVrtos 1).blocks2.nb) (st : VrtosState ℚ 1 1), (exVrtos 1).Good ∧
    (exVrtos 1).support1 = some S1 ∧ (exVrtos 1).support2 = some S2 ∧ (∀ c : Fin 1, st.avg c = (∑ i, st.mem i * (exVrtos 1).A.ent i c) / (1 : ℕ)) ∧
    (∀ c, st.tmp c = 0) ∧ (∀ i : Fin 1, vrtosStep (exVrtos 1) S1 S2 st i = some st) ∧ st.z 0 = 1 := by
  obtain ⟨S1, hS1, -⟩ := (exVrtos_good 1).support1
  obtain ⟨S2, hS2, -⟩ := (exVrtos_good 1).support2
  refine ⟨S1, S2, { y1 := ![1], y2 := ![1], x1 := ![1], x2 := ![1], z := ![1], mem := ![0], avg := ![0], tmp := ![0] }, exVrtos_good 1, hS1, hS2, ?_, ?_, ?_, rfl⟩
  · intro c; fin_cases c; simp
  · intro c; fin_cases c; rfl
  · intro i
    rw [Subsingleton.elim i 0]
    have h : ((exVrtos 1).support1.bind fun S1 => (exVrtos 1).support2.bind fun S2 => (vrtosStep (exVrtos 1) S1 S2
        { y1 := ![1], y2 := ![1], x1 := ![1], x2 := ![1], z := ![1], mem := ![0], avg := ![0], tmp := ![0] } 0).map fun s =>
        decide (s.y1 = ![1] ∧ s.y2 = ![1] ∧ s.x1 = ![1] ∧ s.x2 = ![1] ∧ s.z = ![1] ∧ s.mem = ![0] ∧ s.avg = ![0] ∧ s.tmp = ![0])) = some true := by
      decide +kernel
    rw [hS1, hS2] at h
    simp only [Option.bind_some] at h
    obtain ⟨s, hs, hd⟩ := Option.map_eq_some_iff.mp h
    rw [decide_eq_true_eq] at hd
    obtain ⟨e1, e2, e3, e4, e5, e6, e7, e8⟩ := hd
    rw [show ((0 : Fin 1).val) = 0 from rfl, hs]
    congr 1
    cases s
    simp only at e1 e2 e3 e4 e5 e6 e7 e8
    subst e1 e2 e3 e4 e5 e6 e7 e8
    rfl

end Copt
