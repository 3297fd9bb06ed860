import Verif.Props.SagaFixed

/-! # Properties of `minimize_svrg` -/

set_option linter.unusedSectionVars false

namespace Copt

open Spec

variable {n p : ℕ}

/-- **C60 (snapshot gradient).** `full_grad(x)` is the exact gradient of the data term, for all data (duplicate entries included). -/
theorem C60_full_grad {K : Type} [Field K] (P : VRArgs K n p) (hG : GoodCsr p P.A.indptr P.A.indices) (x : Fin p → K) :
    fullGrad P x = some (finiteSumGrad (fun i c => P.A.ent i c) P.b P.deriv 0 x) := by
  rw [fullGrad_spec P hG x]
  congr 1
  funext c
  unfold finiteSumGrad VRArgs.gi
  simp

section Unbiased
variable {K : Type} [Field K] [LinearOrder K] [IsStrictOrderedRing K]

/-- **C60 (direction, what holds).** Full claim: the inner update, averaged over the samples, is minus the step times the gradient at the current point,
on every touched block, for every block structure and every state within an epoch.  Proved here at the features `c` such that every sample touching the
block of `c` stores `c` (all features when blocks are single features, or when the data is dense on blocks), and at any feature while its scratch entry
is zero.  Missing: other features of larger blocks, where the claim is false (`C60_refuted`). -/
theorem C60_unbiased_partial (P : VRArgs K n p) (hP : P.Good) (S : Support n P.blocks.nb) (hS : P.support = some S) (step : K) (snap avg : Fin p → K)
    (havg : fullGrad P snap = some avg) (st : SvrgState K p) (hprox : P.prox = noProx) :
    ∃ s : Fin n → SvrgState K p, (∀ i : Fin n, svrgStep P S step snap avg st i = some (s i)) ∧
      ∀ (c : Fin p) (h : Fin P.blocks.nb), InBlock P.blocks.ptr h c → (∃ i, Touches P.A.indptr P.A.indices P.blocks.ptr i h) →
        ((∀ i, Touches P.A.indptr P.A.indices P.blocks.ptr i h → StoresAt P.A.indptr P.A.indices i c) ∨ st.tmp c = 0) →
        (∑ i, ((s i).x c - st.x c)) / (n : K) = -(step * finiteSumGrad (fun i c => P.A.ent i c) P.b P.deriv P.alpha st.x c) := by
  classical
  obtain ⟨S', hS', hok⟩ := hP.support
  rw [hS] at hS'
  obtain rfl := Option.some.inj hS'
  rw [fullGrad_spec P hP.csr snap] at havg
  have havg' : ∀ c : Fin p, avg c = (∑ i, P.gi snap i * P.A.ent i c) / (n : K) := fun c => by rw [← Option.some.inj havg]
  have hst : ∀ i : Fin n, ∃ s, svrgStep P S step snap avg st i = some s ∧ (∀ c, ¬Near P.A hP.blocks i c → s.x c = st.x c) ∧
      ∀ c, Near P.A hP.blocks i c → s.x c = st.x c - step * ((if StoresAt P.A.indptr P.A.indices i c then
        (P.gi st.x i - P.gi snap i) * P.A.ent i c else st.tmp c) + blockWeight P.A hP.blocks c * (avg c + P.alpha * st.x c)) := by
    intro i
    obtain ⟨hs, -, tmp, mid, h, h1, h2, h3⟩ := svrgStep_spec P hP hok step snap avg st i
    rw [hprox] at h
    exact ⟨_, h, h3, fun c hc => by rw [← h1]; exact h2 c hc⟩
  choose s hs hx1 hx2 using hst
  refine ⟨s, hs, fun c h hin hex hcov => ?_⟩
  have hof := hP.blocks.of_eq hin
  have hnear : ∃ i, Near P.A hP.blocks i c := by
    obtain ⟨i, hi⟩ := hex
    exact ⟨i, by unfold Near; rw [hof]; exact hi⟩
  have hn : (n : K) ≠ 0 := by
    obtain ⟨i, -⟩ := hex
    have : 0 < n := i.pos
    exact_mod_cast this.ne'
  have hdiff : ∀ i, (s i).x c - st.x c = -(step * ((P.gi st.x i - P.gi snap i) * P.A.ent i c)) -
      step * (if Near P.A hP.blocks i c then blockWeight P.A hP.blocks c * (avg c + P.alpha * st.x c) else 0) := by
    intro i
    by_cases hc : Near P.A hP.blocks i c
    · rw [if_pos hc, hx2 i c hc]
      by_cases hst : StoresAt P.A.indptr P.A.indices i c
      · rw [if_pos hst]; ring
      · have hz : st.tmp c = 0 := by
          refine hcov.resolve_left fun hh => hst (hh i ?_)
          have := hc; unfold Near at this; rwa [hof] at this
        rw [if_neg hst, ent_eq_zero hst, hz]; ring
    · have : P.A.ent i c = 0 := ent_eq_zero fun hh => hc (near_of_stores hP.blocks hh)
      rw [if_neg hc, hx1 i c hc, this]; ring
  simp only [hdiff]
  rw [Finset.sum_sub_distrib, ← Finset.mul_sum, sum_near_weight _ _ _ hnear, Finset.sum_neg_distrib, ← Finset.mul_sum, havg' c]
  simp only [sub_mul, Finset.sum_sub_distrib]
  unfold finiteSumGrad VRArgs.gi
  field_simp
  ring

/-- C60 for single-feature blocks, the default: no restriction is left. -/
theorem C60_unbiased_single_partial (P : VRArgs K n p) (hP : P.Good) (heye : P.blocks = BlockMat.eye p) (S : Support n P.blocks.nb) (hS : P.support = some S)
    (step : K) (snap avg : Fin p → K) (havg : fullGrad P snap = some avg) (st : SvrgState K p) (hprox : P.prox = noProx) :
    ∃ s : Fin n → SvrgState K p, (∀ i : Fin n, svrgStep P S step snap avg st i = some (s i)) ∧
      ∀ c : Fin p, (∃ i, StoresAt P.A.indptr P.A.indices i c) →
        (∑ i, ((s i).x c - st.x c)) / (n : K) = -(step * finiteSumGrad (fun i c => P.A.ent i c) P.b P.deriv P.alpha st.x c) := by
  obtain ⟨s, hs, h⟩ := C60_unbiased_partial P hP S hS step snap avg havg st hprox
  refine ⟨s, hs, fun c hc => ?_⟩
  obtain ⟨i, hi⟩ := hc
  refine h c (hP.blocks.of c) (hP.blocks.of_spec c) ⟨i, c, hi, hP.blocks.of_spec c⟩ (Or.inl fun j hj => ?_)
  obtain ⟨c', hst, hin⟩ := hj
  have h1 := hP.blocks.of_spec c
  generalize hP.blocks.of c = h at h1 hin
  obtain ⟨A, b, d, al, x0, ss, B, pr, mi, tl, od⟩ := P
  simp only at heye
  subst heye
  have e1 : h.val ≤ c.val := h1.1
  have e2 : c.val < h.val + 1 := h1.2
  have e3 : h.val ≤ c' := hin.1
  have e4 : c' < h.val + 1 := hin.2
  rw [show c.val = c' by omega]
  exact hst

end Unbiased

/-! The refutation: one block `{0, 1}`, sample 0 stores feature 0 only and sample 1 stores feature 1 only. -/

/-- Arguments of the counterexample. -/
def exSvrg : VRArgs ℚ 2 2 :=
  { A := { nnz := 2, data := ![1, 1], indices := ![0, 1], indptr := ![0, 1, 2] }, b := ![0, 0], deriv := fun t b => t - b, alpha := 0,
    x0 := ![1, 1], stepSize := some 1, blocks := { nb := 1, nz := 2, ptr := ![0, 2], idx := fun k => k }, prox := noProx, maxIter := 1, tol := 0,
    order := fun _ => [0, 1] }

theorem exSvrg_good : exSvrg.Good := by
  refine ⟨⟨?_, ?_, ?_⟩, ?_, ⟨⟨rfl, rfl, ?_⟩, rfl, fun _ => rfl⟩⟩
  · intro i; fin_cases i <;> simp [exSvrg]
  · intro i; fin_cases i <;> simp [exSvrg]
  · intro i; change Fin 2 at i; fin_cases i <;> simp [exSvrg]
  · intro i j k _ _ _ _ h
    change Fin 2 at j; change Fin 2 at k
    fin_cases j <;> fin_cases k <;> simp [exSvrg] at h ⊢
  · intro h
    change Fin 1 at h
    fin_cases h
    show (![0, 2] : Fin 2 → ℕ) 0 ≤ (![0, 2] : Fin 2 → ℕ) 1
    simp

/-- The averaged update of feature 0 after the inner steps `idx`. -/
def exSvrgMean (idx : List ℕ) : Option (ℚ × ℚ) := do
  let S ← exSvrg.support
  let avg ← fullGrad exSvrg exSvrg.x0
  let st ← svrgEpoch exSvrg S 1 exSvrg.x0 avg { x := exSvrg.x0, tmp := fun _ => 0 } idx
  let s0 ← svrgStep exSvrg S 1 exSvrg.x0 avg st 0
  let s1 ← svrgStep exSvrg S 1 exSvrg.x0 avg st 1
  return (((s0.x 0 - st.x 0) + (s1.x 0 - st.x 0)) / 2, st.x 0)

/-- **C60 is false of the code** for blocks of several features: the scratch gradient is not reset, so a sample that touches a block without storing all
of its features reuses the entry another sample left there.  Within the first epoch, after the inner steps `0, 0`, feature 0 is at `1/2`, where the
gradient is `1/4`, and the averaged update is 0. -/
theorem C60_refuted : ∃ (P : VRArgs ℚ 2 2) (S : Support 2 P.blocks.nb) (avg : Fin 2 → ℚ) (st : SvrgState ℚ 2) (s : Fin 2 → SvrgState ℚ 2),
    P.Good ∧ P.support = some S ∧ fullGrad P P.x0 = some avg ∧ svrgEpoch P S 1 P.x0 avg { x := P.x0, tmp := fun _ => 0 } [0, 0] = some st ∧
    (∀ i : Fin 2, svrgStep P S 1 P.x0 avg st i = some (s i)) ∧ (∃ i h, InBlock P.blocks.ptr h 0 ∧ Touches P.A.indptr P.A.indices P.blocks.ptr i h) ∧
    (∑ i, ((s i).x 0 - st.x 0)) / 2 ≠ -(1 * finiteSumGrad (fun i (c : Fin 2) => P.A.ent i c) P.b P.deriv P.alpha st.x 0) := by
  have h : exSvrgMean [0, 0] = some (0, 1 / 2) := by decide +kernel
  unfold exSvrgMean at h
  obtain ⟨S, hS, h⟩ := Option.bind_eq_some_iff.mp h
  obtain ⟨avg, havg, h⟩ := Option.bind_eq_some_iff.mp h
  obtain ⟨st, hst, h⟩ := Option.bind_eq_some_iff.mp h
  obtain ⟨s0, hs0, h⟩ := Option.bind_eq_some_iff.mp h
  obtain ⟨s1, hs1, h⟩ := Option.bind_eq_some_iff.mp h
  have h' := Option.some.inj h
  simp only [Prod.mk.injEq] at h'
  refine ⟨exSvrg, S, avg, st, ![s0, s1], exSvrg_good, hS, havg, hst, ?_, ⟨0, ⟨0, by decide⟩, ?_, 0, ?_, ?_⟩, ?_⟩
  · intro i; fin_cases i
    · exact hs0
    · exact hs1
  · exact ⟨by decide, by decide⟩
  · exact ⟨⟨0, by decide⟩, by decide, by decide, by decide⟩
  · exact ⟨by decide, by decide⟩
  · rw [Fin.sum_univ_two]
    simp only [Matrix.cons_val_zero, Matrix.cons_val_one]
    rw [h'.1]
    have hg : finiteSumGrad (fun i (c : Fin 2) => exSvrg.A.ent i c) exSvrg.b exSvrg.deriv exSvrg.alpha st.x 0 = st.x 0 / 2 := by
      have e : ∀ i c : Fin 2, exSvrg.A.ent i c = if i = c then 1 else 0 := by
        intro i c
        unfold CsrMat.ent csrEntry
        show (∑ j : Fin 2, _) = _
        rw [Fin.sum_univ_two]
        fin_cases i <;> fin_cases c <;> simp [exSvrg]
      unfold finiteSumGrad
      simp only [e, Fin.sum_univ_two]
      simp [exSvrg]
    rw [hg, h'.2]
    norm_num

end Copt
