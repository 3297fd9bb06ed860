import Verif.Proof.Vrtos
import Verif.Props.SagaPenalties

/-! # Properties of `minimize_vrtos` -/

set_option linter.unusedSectionVars false

namespace Copt

open Spec

/-! ### C61: memory -/

section Memory
variable {K : Type} [Field K] {n p : ℕ}

/-- The state of the memory after a history. -/
structure VrtosMem (P : VrtosArgs K n p) (hb : n = P.bSize) (S1 : Support n P.blocks1.nb) (S2 : Support n P.blocks2.nb) (idx : List ℕ)
    (st : VrtosState K n p) : Prop where
  avg : ∀ c : Fin p, st.avg c = (∑ i, st.mem i * P.A.ent i c) / (n : K)
  tmp : st.tmp = fun _ => 0
  fresh : ∀ i : Fin n, i.val ∉ idx → st.mem i = 0
  last : ∀ (i : Fin n) (pre post : List ℕ), idx = pre ++ i.val :: post → i.val ∉ post → ∃ s, vrtosEpoch P S1 S2 (vrtosInit P) pre = some s ∧
    st.mem i = P.deriv (∑ c : Fin p, P.A.ent i c * s.z c) (P.b (i.cast hb))

theorem vrtosMem (P : VrtosArgs K n p) (hP : P.Good) {S1 : Support n P.blocks1.nb} {S2 : Support n P.blocks2.nb} (hS1 : P.support1 = some S1)
    (hS2 : P.support2 = some S2) : ∀ (idx : List ℕ) (st : VrtosState K n p), vrtosEpoch P S1 S2 (vrtosInit P) idx = some st →
      VrtosMem P hP.size S1 S2 idx st := by
  obtain ⟨S', hS', hok1⟩ := hP.support1
  rw [hS1] at hS'
  obtain rfl := Option.some.inj hS'
  obtain ⟨S', hS', hok2⟩ := hP.support2
  rw [hS2] at hS'
  obtain rfl := Option.some.inj hS'
  intro idx
  induction idx using List.reverseRecOn with
  | nil =>
    intro st h
    obtain rfl := Option.some.inj h
    exact ⟨by simp [vrtosInit], rfl, fun _ _ => rfl, fun i pre post h => by simp at h⟩
  | append_singleton idx k ih =>
    intro st h
    unfold vrtosEpoch at h
    rw [List.foldlM_append] at h
    obtain ⟨s, hs, h2⟩ := Option.bind_eq_some_iff.mp h
    have hI := ih s hs
    rw [List.foldlM_cons] at h2
    obtain ⟨t, h2', h3⟩ := Option.bind_eq_some_iff.mp h2
    obtain rfl := Option.some.inj h3
    have hk := vrtosStep_lt h2'
    obtain ⟨-, -, -, -, -, -, -, -, -, -, e1, e2, e3⟩ := vrtosStep_spec P hP hok1 hok2 s t hI.tmp ⟨k, hk⟩ h2'
    refine ⟨fun c => ?_, e3, fun i hi => ?_, fun i pre post he hpost => ?_⟩
    · rw [e2 c, e1, hI.avg c, ← add_div]
      congr 1
      symm
      rw [← sub_eq_iff_eq_add', ← Finset.sum_sub_distrib, Finset.sum_eq_single (⟨k, hk⟩ : Fin n)]
      · simp only [Function.update_self]; ring
      · intro j _ hj
        simp only [Function.update_of_ne hj, sub_self]
      · simp
    · rw [List.mem_append, not_or] at hi
      rw [e1, Function.update_of_ne (by rintro rfl; exact hi.2 (by simp))]
      exact hI.fresh i hi.1
    · rcases List.eq_nil_or_concat post with rfl | ⟨post', q, rfl⟩
      · have := List.append_inj' (he.trans (by rfl : pre ++ i.val :: [] = pre ++ [i.val])) rfl
        obtain ⟨rfl, h3⟩ := this
        simp only [List.cons.injEq, and_true] at h3
        refine ⟨s, hs, ?_⟩
        rw [e1, show i = ⟨k, hk⟩ from Fin.ext h3.symm, Function.update_self]
        rfl
      · have h4 : idx ++ [k] = (pre ++ i.val :: post') ++ [q] := by rw [he]; simp
        obtain ⟨h5, h6⟩ := List.append_inj' h4 rfl
        simp only [List.cons.injEq, and_true] at h6
        have hne : i.val ≠ k := by
          rintro rfl
          exact hpost (by simp [h6])
        obtain ⟨s', hs', hm⟩ := hI.last i pre post' h5 (fun hc => hpost (by simp [hc]))
        refine ⟨s', hs', ?_⟩
        rw [e1, Function.update_of_ne (fun hc => hne (by rw [hc]))]
        exact hm

/-- **C61 (memory).** For every history of sampled indices, when the inner loop has processed the history, `gradient_average` is the average of the
memory table times the rows, the scratch array is zero, a sample that was never drawn has memory zero, and any other sample's memory is the derivative
at the value `z` had when it was last drawn. -/
theorem C61_vrtos_memory (P : VrtosArgs K n p) (hP : P.Good) (S1 : Support n P.blocks1.nb) (S2 : Support n P.blocks2.nb) (hS1 : P.support1 = some S1)
    (hS2 : P.support2 = some S2) (idx : List ℕ) (st : VrtosState K n p) (hrun : vrtosEpoch P S1 S2 (vrtosInit P) idx = some st) :
    (∀ c : Fin p, st.avg c = (∑ i, st.mem i * P.A.ent i c) / (n : K)) ∧ (∀ c, st.tmp c = 0) ∧ (∀ i : Fin n, i.val ∉ idx → st.mem i = 0) ∧
      ∀ (i : Fin n) (pre post : List ℕ), idx = pre ++ i.val :: post → i.val ∉ post →
        ∃ s, vrtosEpoch P S1 S2 (vrtosInit P) pre = some s ∧ st.mem i = P.deriv (∑ c : Fin p, P.A.ent i c * s.z c) (P.b (i.cast hP.size)) := by
  have h := vrtosMem P hP hS1 hS2 idx st hrun
  exact ⟨h.avg, fun c => by rw [h.tmp], h.fresh, h.last⟩

theorem vrtosEpoch_append (P : VrtosArgs K n p) (S1 : Support n P.blocks1.nb) (S2 : Support n P.blocks2.nb) (st : VrtosState K n p) (a b : List ℕ) :
    vrtosEpoch P S1 S2 st (a ++ b) = (vrtosEpoch P S1 S2 st a).bind fun s => vrtosEpoch P S1 S2 s b := by
  unfold vrtosEpoch; rw [List.foldlM_append]; rfl

theorem vrtosLoop_history (P : VrtosArgs K n p) (S1 : Support n P.blocks1.nb) (S2 : Support n P.blocks2.nb) : ∀ (k it : ℕ) (st : VrtosState K n p),
    vrtosLoop P S1 S2 k it st = vrtosEpoch P S1 S2 st ((List.range' it k).flatMap P.order) := by
  intro k
  induction k with
  | zero => intro it st; rfl
  | succ k ih =>
    intro it st
    rw [List.range'_succ, List.flatMap_cons, vrtosEpoch_append]
    unfold vrtosLoop
    cases vrtosEpoch P S1 S2 st (P.order it) with
    | none => rfl
    | some s => exact ih (it + 1) s

/-- A finished call: the warm-up step on sample 0 and every epoch have been run. -/
theorem minimizeVrtos_ok [LinearOrder K] {P : VrtosArgs K n p} {r : VrtosResult K n p} (h : minimizeVrtos P = .ok r) : ∃ S1 S2, P.support1 = some S1 ∧ P.support2 = some S2 ∧
    0 < P.maxIter ∧ vrtosEpoch P S1 S2 (vrtosInit P) (0 :: (List.range P.maxIter).flatMap P.order) = some r.final ∧ r.x = r.final.z ∧ r.success = false ∧
    r.nit = P.maxIter - 1 ∧ r.callerX0 = r.final.x1 := by
  unfold minimizeVrtos at h
  split at h
  · simp at h
  split at h
  · simp at h
  rw [show supportMatrix P.A.indices P.A.indptr P.rb1 P.blocks1.nb = P.support1 from rfl,
    show supportMatrix P.A.indices P.A.indptr P.rb2 P.blocks2.nb = P.support2 from rfl] at h
  cases h1 : P.support1 with
  | none => rw [h1] at h; simp [orFault, bind, Except.bind] at h
  | some S1 =>
  cases h2 : P.support2 with
  | none => rw [h1, h2] at h; simp [orFault, bind, Except.bind] at h
  | some S2 =>
  rw [h1, h2] at h
  simp only [orFault, bind, Except.bind] at h
  split at h
  · simp at h
  cases h3 : vrtosEpoch P S1 S2 (vrtosInit P) [0] with
  | none => rw [h3] at h; simp at h
  | some st =>
  rw [h3] at h
  simp only at h
  cases hm : P.maxIter with
  | zero => rw [hm] at h; simp at h
  | succ k =>
  rw [hm] at h
  simp only at h
  cases h4 : vrtosLoop P S1 S2 (k + 1) 0 st with
  | none => rw [h4] at h; simp at h
  | some st' =>
  rw [h4] at h
  simp only [pure, Except.pure, Except.ok.injEq] at h
  subst h
  refine ⟨S1, S2, rfl, rfl, by omega, ?_, rfl, rfl, rfl, rfl⟩
  rw [show 0 :: (List.range (k + 1)).flatMap P.order = [0] ++ (List.range (k + 1)).flatMap P.order from rfl, vrtosEpoch_append, h3]
  rw [vrtosLoop_history] at h4
  rw [List.range_eq_range']
  exact h4

/-- C61 for the arrays of a finished call of `minimize_vrtos`. -/
theorem C61_minimize_vrtos [LinearOrder K] (P : VrtosArgs K n p) (hP : P.Good) (r : VrtosResult K n p) (h : minimizeVrtos P = .ok r) :
    r.x = r.final.z ∧ (∀ c : Fin p, r.final.avg c = (∑ i, r.final.mem i * P.A.ent i c) / (n : K)) ∧ (∀ c, r.final.tmp c = 0) ∧
      ∀ i : Fin n, i.val ≠ 0 → (∀ k < P.maxIter, i.val ∉ P.order k) → r.final.mem i = 0 := by
  obtain ⟨S1, S2, h1, h2, -, h4, h5, -, -, -⟩ := minimizeVrtos_ok h
  have hM := vrtosMem P hP h1 h2 _ _ h4
  refine ⟨h5, hM.avg, fun c => by rw [hM.tmp], fun i hi0 hi => hM.fresh i fun hc => ?_⟩
  rcases List.mem_cons.mp hc with hc | hc
  · exact hi0 hc
  obtain ⟨q, hq, hq2⟩ := List.mem_flatMap.mp hc
  exact hi q (List.mem_range.mp hq) hq2

end Memory

/-! ### C61: fixed points -/

section Fixed
variable {n p : ℕ}

/-- What a fixed prox half says about its blocks. -/
theorem half_opt {K : Type} [Field K] [LinearOrder K] [IsStrictOrderedRing K] {B : BlockMat} {P : VrtosArgs K n p} {hb : n = P.bSize}
    (hB : GoodBlocks B p) {S : Support n B.nb} (hok : SupportOk P.A hB S) {pen : Fin B.nb → (Fin p → K) → K} (hpen : IsBlockPenalty B.ptr pen)
    {prox : SparseProx K p} (hprox : IsBlockProx pen prox) (hstep : 0 ≤ P.stepSize) {st : VrtosState K n p} {i : Fin n} {y x x' v : Fin p → K}
    {hs : List ℕ} (hr : S.row i = some hs) (hh : VrtosHalf P hb hB S prox st i y x y x' hs v) (hgi : P.gi hb st.z i = st.mem i)
    (h : Fin B.nb) (ht : Touches P.A.indptr P.A.indices B.ptr i h) (w : Fin p → K) :
    P.stepSize * pen h st.z + (∑ c, if hB.of c = h then ((st.z c - y c) / blockWeight P.A hB c - P.stepSize / 2 * (st.avg c + P.alpha * st.z c)) *
      (w c - st.z c) else 0) ≤ P.stepSize * pen h w := by
  classical
  obtain ⟨hs', hr', hnd, hlt, hmem⟩ := hok.row i
  rw [hr] at hr'
  obtain rfl := Option.some.inj hr'
  have hw := listed_lt_width hok hlt hmem
  obtain ⟨u, hu, hup⟩ := hprox _ (supWeights n S.bs) P.stepSize hs v (supWeights_nonneg n S.bs) hstep hnd (fun h hh => ⟨hlt h hh, hw h hh⟩)
  have hux : u = x' := by
    have := hh.prox
    rw [hu] at this
    exact Option.some.inj this
  subst hux
  have hiff := (isProx_listed_iff hB hpen (w := getD0 (supWeights n S.bs : Fin (supWidth S.bs) → K)) (hs := hs)
    (fun h hh => by rw [getD0_lt _ (hw h hh)]; exact supWeights_nonneg n S.bs _) hstep v u).mp hup
  have hz : ∀ c, hB.of c = h → u c = st.z c := by
    intro c hc
    have hn : Near P.A hB i c := by unfold Near; rw [hc]; exact ht
    have := hh.ynear c hn
    linarith [left_eq_add.mp this]
  have hin : h.val ∈ hs := (hmem h).mpr ht
  have h1 := hiff.2 h hin w
  have hpz : pen h u = pen h st.z := hpen.loc h u st.z fun c hc => hz c (hB.of_eq hc)
  rw [hpz] at h1
  have hwt := hok.weight (K := K) ht
  set W : K := getD0 (supWeights n S.bs : Fin (supWidth S.bs) → K) h.val with hW
  have hWv : W = (n : K) / (touchCount P.A B.ptr h : K) := by
    have := hwt.2
    rw [rd_eq_getD0 _ (hw _ hin)] at this
    exact Option.some.inj this
  have hWpos : 0 < W := by
    rw [hWv]
    exact div_pos (by exact_mod_cast i.pos) (by exact_mod_cast hwt.1)
  have hsum : (∑ c, if hB.of c = h then (v c - u c) * (w c - u c) else 0) =
      W * ∑ c, if hB.of c = h then ((st.z c - y c) / blockWeight P.A hB c - P.stepSize / 2 * (st.avg c + P.alpha * st.z c)) * (w c - st.z c) else 0 := by
    rw [Finset.mul_sum]
    refine Finset.sum_congr rfl fun c _ => ?_
    by_cases hc : hB.of c = h
    · have hn : Near P.A hB i c := by unfold Near; rw [hc]; exact ht
      have hbw : blockWeight P.A hB c = W := by unfold blockWeight; rw [hc, hWv]
      rw [if_pos hc, if_pos hc, hh.near c hn, hz c hc, hgi, hbw, sub_self, zero_mul, zero_add]
      field_simp
      ring
    · rw [if_neg hc, if_neg hc, mul_zero]
  rw [hsum] at h1
  have h2 : W * (P.stepSize * pen h st.z + ∑ c, if hB.of c = h then ((st.z c - y c) / blockWeight P.A hB c -
      P.stepSize / 2 * (st.avg c + P.alpha * st.z c)) * (w c - st.z c) else 0) ≤ W * (P.stepSize * pen h w) := by
    linarith
  exact le_of_mul_le_mul_left h2 hWpos

theorem blockWeight_pos {K : Type} [Field K] [LinearOrder K] [IsStrictOrderedRing K] {A : CsrMat K n p} {B : BlockMat} (hB : GoodBlocks B p)
    {S : Support n B.nb} (hok : SupportOk A hB S) {i : Fin n} {c : Fin p} (h : Near A hB i c) : 0 < blockWeight A hB c :=
  div_pos (by exact_mod_cast i.pos) (by exact_mod_cast (hok.weight (K := K) h).1)

/-- Sum over all blocks, when the change is confined to touched features. -/
theorem sum_half {K : Type} [Field K] [LinearOrder K] [IsStrictOrderedRing K] {A : CsrMat K n p} {B : BlockMat} (hB : GoodBlocks B p)
    {pen : Fin B.nb → (Fin p → K) → K} (hpen : IsBlockPenalty B.ptr pen) {step : K} {z w D : Fin p → K}
    (hw : ∀ c, w c ≠ z c → ∃ i, Near A hB i c)
    (hall : ∀ (h : Fin B.nb) (i : Fin n), Touches A.indptr A.indices B.ptr i h →
      step * pen h z + (∑ c, if hB.of c = h then D c * (w c - z c) else 0) ≤ step * pen h w) :
    step * (∑ h, pen h z) + ∑ c, D c * (w c - z c) ≤ step * ∑ h, pen h w := by
  classical
  rw [sum_by_block hB, Finset.mul_sum, Finset.mul_sum, ← Finset.sum_add_distrib]
  refine Finset.sum_le_sum fun h _ => ?_
  by_cases ht : ∃ i, Touches A.indptr A.indices B.ptr i h
  · obtain ⟨i, hi⟩ := ht
    exact hall h i hi
  · have he : ∀ c, hB.of c = h → w c = z c := by
      intro c hc
      by_contra hne
      obtain ⟨i, hi⟩ := hw c hne
      unfold Near at hi
      rw [hc] at hi
      exact ht ⟨i, hi⟩
    rw [hpen.loc h w z fun c hc => he c (hB.of_eq hc)]
    rw [Finset.sum_eq_zero, add_zero]
    intro c _
    by_cases hc : hB.of c = h
    · rw [if_pos hc, he c hc, sub_self, mul_zero]
    · rw [if_neg hc]

/-- **C61 (fixed points are optimal).** If no sample changes the state and `gradient_average` agrees with the memory, then `z` satisfies the first order
optimality condition of `(1/n) ∑ f_i + alpha/2 ‖·‖² + g + h` against every change of the features touched through both block structures. -/
theorem C61_fixed_optimal {K : Type} [Field K] [LinearOrder K] [IsStrictOrderedRing K] (P : VrtosArgs K n p) (hP : P.Good)
    (S1 : Support n P.blocks1.nb) (S2 : Support n P.blocks2.nb) (hS1 : P.support1 = some S1) (hS2 : P.support2 = some S2)
    (pen1 : Fin P.blocks1.nb → (Fin p → K) → K) (hpen1 : IsBlockPenalty P.blocks1.ptr pen1) (hprox1 : IsBlockProx pen1 P.prox1)
    (pen2 : Fin P.blocks2.nb → (Fin p → K) → K) (hpen2 : IsBlockPenalty P.blocks2.ptr pen2) (hprox2 : IsBlockProx pen2 P.prox2)
    (hstep : 0 < P.stepSize) (st : VrtosState K n p) (havg : ∀ c : Fin p, st.avg c = (∑ i, st.mem i * P.A.ent i c) / (n : K))
    (htmp : ∀ c, st.tmp c = 0) (hfix : ∀ i : Fin n, vrtosStep P S1 S2 st i = some st) (y : Fin p → K)
    (hy : ∀ c, y c ≠ st.z c → (∃ i h, InBlock P.blocks1.ptr h c ∧ Touches P.A.indptr P.A.indices P.blocks1.ptr i h) ∧
      ∃ i h, InBlock P.blocks2.ptr h c ∧ Touches P.A.indptr P.A.indices P.blocks2.ptr i h) :
    (∑ h, pen1 h st.z) + ∑ h, pen2 h st.z ≤ (∑ h, pen1 h y) + (∑ h, pen2 h y) +
      dot (finiteSumGrad (fun i c => P.A.ent i c) (fun i => P.b (i.cast hP.size)) P.deriv P.alpha st.z) (y - st.z) := by
  classical
  obtain ⟨S', hS', hok1⟩ := hP.support1
  rw [hS1] at hS'
  obtain rfl := Option.some.inj hS'
  obtain ⟨S', hS', hok2⟩ := hP.support2
  rw [hS2] at hS'
  obtain rfl := Option.some.inj hS'
  have hsp := fun i => vrtosStep_spec P hP hok1 hok2 st st (funext htmp) i (hfix i)
  have hgi : ∀ i, P.gi hP.size st.z i = st.mem i := by
    intro i
    obtain ⟨-, -, -, -, -, -, -, -, -, -, e1, -, -⟩ := hsp i
    conv_rhs => rw [e1]
    rw [Function.update_self]
  have hn1 : ∀ c, y c ≠ st.z c → ∃ i, Near P.A hP.blocks1 i c := by
    intro c hc
    obtain ⟨i, h, h1, h2⟩ := (hy c hc).1
    exact ⟨i, by unfold Near; rw [hP.blocks1.of_eq h1]; exact h2⟩
  have hn2 : ∀ c, y c ≠ st.z c → ∃ i, Near P.A hP.blocks2 i c := by
    intro c hc
    obtain ⟨i, h, h1, h2⟩ := (hy c hc).2
    exact ⟨i, by unfold Near; rw [hP.blocks2.of_eq h1]; exact h2⟩
  have k1 := sum_half hP.blocks1 hpen1 (step := P.stepSize)
    (D := fun c => (st.z c - st.y1 c) / blockWeight P.A hP.blocks1 c - P.stepSize / 2 * (st.avg c + P.alpha * st.z c)) hn1 (fun h i ht => by
      obtain ⟨hs1, hs2, v1, v2, r1, r2, a1, a2, -⟩ := hsp i
      exact half_opt hP.blocks1 hok1 hpen1 hprox1 hstep.le r1 a1 (hgi i) h ht y)
  have k2 := sum_half hP.blocks2 hpen2 (step := P.stepSize)
    (D := fun c => (st.z c - st.y2 c) / blockWeight P.A hP.blocks2 c - P.stepSize / 2 * (st.avg c + P.alpha * st.z c)) hn2 (fun h i ht => by
      obtain ⟨hs1, hs2, v1, v2, r1, r2, a1, a2, -⟩ := hsp i
      exact half_opt hP.blocks2 hok2 hpen2 hprox2 hstep.le r2 a2 (hgi i) h ht y)
  have hsum : (∑ c, ((st.z c - st.y1 c) / blockWeight P.A hP.blocks1 c - P.stepSize / 2 * (st.avg c + P.alpha * st.z c)) * (y c - st.z c)) +
      (∑ c, ((st.z c - st.y2 c) / blockWeight P.A hP.blocks2 c - P.stepSize / 2 * (st.avg c + P.alpha * st.z c)) * (y c - st.z c)) =
      -(P.stepSize * dot (finiteSumGrad (fun i c => P.A.ent i c) (fun i => P.b (i.cast hP.size)) P.deriv P.alpha st.z) (y - st.z)) := by
    unfold dot
    rw [Finset.mul_sum, ← Finset.sum_neg_distrib, ← Finset.sum_add_distrib]
    refine Finset.sum_congr rfl fun c _ => ?_
    by_cases hc : y c = st.z c
    · rw [Pi.sub_apply, hc, sub_self, mul_zero, mul_zero, mul_zero, mul_zero, add_zero, neg_zero]
    · obtain ⟨i, hi⟩ := hn1 c hc
      obtain ⟨j, hj⟩ := hn2 c hc
      obtain ⟨-, -, -, -, -, -, -, -, hz, -⟩ := hsp i
      have hzc := hz c
      rw [if_pos (Or.inl hi), (hok1.getD0_weight hi).2, (hok2.getD0_weight hj).2] at hzc
      have p1 := blockWeight_pos hP.blocks1 hok1 hi
      have p2 := blockWeight_pos hP.blocks2 hok2 hj
      set a := blockWeight P.A hP.blocks1 c
      set b := blockWeight P.A hP.blocks2 c
      have hne : 1 / a + 1 / b ≠ 0 := by positivity
      rw [eq_div_iff hne] at hzc
      have hbal : (st.z c - st.y1 c) / a + (st.z c - st.y2 c) / b = 0 := by
        rw [sub_div, sub_div]
        have e : st.z c * (1 / a + 1 / b) = st.z c / a + st.z c / b := by ring
        rw [e] at hzc
        have e1 : 1 / a * st.y1 c = st.y1 c / a := by ring
        have e2 : 1 / b * st.y2 c = st.y2 c / b := by ring
        rw [e1, e2] at hzc
        linarith
      have hG : finiteSumGrad (fun i (c : Fin p) => P.A.ent i c) (fun i => P.b (i.cast hP.size)) P.deriv P.alpha st.z c = st.avg c + P.alpha * st.z c := by
        unfold finiteSumGrad
        rw [havg c]
        congr 2
        refine Finset.sum_congr rfl fun i _ => ?_
        rw [← hgi i]; rfl
      rw [hG, Pi.sub_apply]
      have e3 : (st.z c - st.y1 c) / a = -((st.z c - st.y2 c) / b) := by linarith
      rw [e3]; ring
  have h3 : P.stepSize * ((∑ h, pen1 h st.z) + ∑ h, pen2 h st.z) ≤ P.stepSize * ((∑ h, pen1 h y) + (∑ h, pen2 h y) +
      dot (finiteSumGrad (fun i c => P.A.ent i c) (fun i => P.b (i.cast hP.size)) P.deriv P.alpha st.z) (y - st.z)) := by
    linarith
  exact le_of_mul_le_mul_left h3 hstep

/-- **C61 (fixed points are solutions).** With convex losses, `alpha ≥ 0` and every feature touched through both structures, the fixed `z` minimises
`(1/n) ∑ f_i + alpha/2 ‖·‖² + g + h`. -/
theorem C61_fixed_minimiser {K : Type} [Field K] [LinearOrder K] [IsStrictOrderedRing K] (P : VrtosArgs K n p) (hP : P.Good)
    (S1 : Support n P.blocks1.nb) (S2 : Support n P.blocks2.nb) (hS1 : P.support1 = some S1) (hS2 : P.support2 = some S2)
    (pen1 : Fin P.blocks1.nb → (Fin p → K) → K) (hpen1 : IsBlockPenalty P.blocks1.ptr pen1) (hprox1 : IsBlockProx pen1 P.prox1)
    (pen2 : Fin P.blocks2.nb → (Fin p → K) → K) (hpen2 : IsBlockPenalty P.blocks2.ptr pen2) (hprox2 : IsBlockProx pen2 P.prox2)
    (hstep : 0 < P.stepSize) (f : K → K → K) (hf : ∀ s t b, f t b + P.deriv t b * (s - t) ≤ f s b) (halpha : 0 ≤ P.alpha)
    (hcov : ∀ c : Fin p, (∃ i h, InBlock P.blocks1.ptr h c ∧ Touches P.A.indptr P.A.indices P.blocks1.ptr i h) ∧
      ∃ i h, InBlock P.blocks2.ptr h c ∧ Touches P.A.indptr P.A.indices P.blocks2.ptr i h)
    (st : VrtosState K n p) (havg : ∀ c : Fin p, st.avg c = (∑ i, st.mem i * P.A.ent i c) / (n : K))
    (htmp : ∀ c, st.tmp c = 0) (hfix : ∀ i : Fin n, vrtosStep P S1 S2 st i = some st) (y : Fin p → K) :
    finiteSum (fun i (c : Fin p) => P.A.ent i c) (fun i => P.b (i.cast hP.size)) f P.alpha st.z + ((∑ h, pen1 h st.z) + ∑ h, pen2 h st.z) ≤
      finiteSum (fun i (c : Fin p) => P.A.ent i c) (fun i => P.b (i.cast hP.size)) f P.alpha y + ((∑ h, pen1 h y) + ∑ h, pen2 h y) :=
  min_of_opt _ _ f P.deriv hf P.alpha halpha (fun y => (∑ h, pen1 h y) + ∑ h, pen2 h y) st.z
    (fun y => C61_fixed_optimal P hP S1 S2 hS1 hS2 pen1 hpen1 hprox1 pen2 hpen2 hprox2 hstep st havg htmp hfix y fun c _ => hcov c) y

end Fixed

end Copt
