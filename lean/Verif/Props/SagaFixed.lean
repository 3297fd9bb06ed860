import Verif.Props.Saga

/-! # `minimize_saga`: unbiased local steps, fixed points -/

set_option linter.unusedSectionVars false

namespace Copt

open Spec

section Unbiased
variable {K : Type} [Field K] [LinearOrder K] [IsStrictOrderedRing K] {n p : ℕ}

theorem sum_near_weight (A : CsrMat K n p) {B : BlockMat} (hB : GoodBlocks B p) (c : Fin p) (hc : ∃ i, Near A hB i c) (v : K) [∀ i, Decidable (Near A hB i c)] :
    (∑ i : Fin n, if Near A hB i c then blockWeight A hB c * v else 0) = (n : K) * v := by
  rw [← Finset.sum_filter, Finset.sum_const, nsmul_eq_mul]
  have hcard : ((Finset.univ.filter fun i : Fin n => Near A hB i c).card) = touchCount A B.ptr (hB.of c) := by
    unfold touchCount
    congr
  rw [hcard]
  unfold blockWeight
  obtain ⟨i, hi⟩ := hc
  have : 0 < touchCount A B.ptr (hB.of c) := by
    rw [← hcard]; exact Finset.card_pos.mpr ⟨i, by simp [hi]⟩
  have hne : (touchCount A B.ptr (hB.of c) : K) ≠ 0 := by exact_mod_cast this.ne'
  field_simp

/-- **C58 (unbiased).** Without penalty, for every state whose `gradient_average` matches its memory table, the mean over all samples of the change made
by a step is minus the step size times the full gradient (data term plus `alpha * x`), at every feature whose block is touched by some sample. -/
theorem C58_unbiased (P : VRArgs K n p) (hP : P.Good) (S : Support n P.blocks.nb) (hS : P.support = some S) (step : K) (st : SagaState K n p)
    (havg : ∀ c : Fin p, st.avg c = (∑ i, st.mem i * P.A.ent i c) / (n : K)) (htmp : ∀ c, st.tmp c = 0) (hprox : P.prox = noProx) :
    ∃ s : Fin n → SagaState K n p, (∀ i : Fin n, sagaStep P S step st i = some (s i)) ∧
      ∀ c : Fin p, (∃ (i : Fin n) (h : Fin P.blocks.nb), InBlock P.blocks.ptr h c ∧ Touches P.A.indptr P.A.indices P.blocks.ptr i h) →
        (∑ i, ((s i).x c - st.x c)) / (n : K) = -(step * finiteSumGrad (fun i c => P.A.ent i c) P.b P.deriv P.alpha st.x c) := by
  classical
  obtain ⟨S', hS', hok⟩ := hP.support
  rw [hS] at hS'
  obtain rfl := Option.some.inj hS'
  have hst : ∀ i : Fin n, ∃ s, sagaStep P S step st i = some s ∧ s.x = sagaMid P hP step st i := by
    intro i
    obtain ⟨hs, -, h⟩ := sagaStep_spec P hP hok step st (funext htmp) i
    rw [hprox] at h
    exact ⟨_, h, rfl⟩
  choose s hs hx using hst
  refine ⟨s, hs, fun c hc => ?_⟩
  obtain ⟨i₀, h, hin, ht⟩ := hc
  have hnear : ∃ i, Near P.A hP.blocks i c := ⟨i₀, by unfold Near; rw [hP.blocks.of_eq hin]; exact ht⟩
  have hn : (n : K) ≠ 0 := by
    have : 0 < n := i₀.pos
    exact_mod_cast this.ne'
  have hdiff : ∀ i, (s i).x c - st.x c = -(step * ((P.gi st.x i - st.mem i) * P.A.ent i c)) -
      step * (if Near P.A hP.blocks i c then blockWeight P.A hP.blocks c * (st.avg c + P.alpha * st.x c) else 0) := by
    intro i
    rw [hx i]
    unfold sagaMid
    by_cases hc : Near P.A hP.blocks i c
    · rw [if_pos hc, if_pos hc]; ring
    · have : P.A.ent i c = 0 := ent_eq_zero fun hh => hc (near_of_stores hP.blocks hh)
      rw [if_neg hc, if_neg hc, this]; ring
  simp only [hdiff]
  rw [Finset.sum_sub_distrib, ← Finset.mul_sum, sum_near_weight _ _ _ hnear, Finset.sum_neg_distrib, ← Finset.mul_sum, havg c]
  simp only [sub_mul, Finset.sum_sub_distrib]
  unfold finiteSumGrad VRArgs.gi
  field_simp
  ring

/-- C58: with a penalty, the routine is applied to the point the step without penalty would have produced; nothing else changes. -/
theorem C58_prox_argument (P : VRArgs K n p) (hP : P.Good) (S : Support n P.blocks.nb) (hS : P.support = some S) (step : K) (st : SagaState K n p)
    (htmp : ∀ c, st.tmp c = 0) (i : Fin n) :
    sagaStep P S step st i = (sagaStep { P with prox := noProx } S step st i).bind fun s => (S.row i).bind fun hs =>
      (P.prox _ (supWeights n S.bs) step hs s.x).map fun u => { s with x := u } := by
  obtain ⟨S', hS', hok⟩ := hP.support
  rw [hS] at hS'
  obtain rfl := Option.some.inj hS'
  have hP' : VRArgs.Good { P with prox := noProx } := ⟨hP.csr, hP.nodup, hP.blocks⟩
  obtain ⟨hs, hr, h⟩ := sagaStep_spec P hP hok step st (funext htmp) i
  obtain ⟨hs', hr', h'⟩ := sagaStep_spec { P with prox := noProx } hP' (S := S) hok step st (funext htmp) i
  rw [h, h', hr]
  simp only [noProx, Option.bind_some]
  show (P.prox _ _ step hs (sagaMid P hP step st i)).bind _ = (P.prox _ _ step hs (sagaMid P hP step st i)).map _
  cases P.prox _ (supWeights n S.bs) step hs (sagaMid P hP step st i) with
  | none => rfl
  | some u => rfl

/-- The routine only changes features of listed blocks. -/
def LocalProx (B : BlockMat) (prox : SparseProx K p) : Prop :=
  ∀ (m : ℕ) (d : Fin m → K) (step : K) (hs : List ℕ) (v u : Fin p → K), prox m d step hs v = some u →
    ∀ c : Fin p, (∀ h : Fin B.nb, InBlock B.ptr h c → h.val ∉ hs) → u c = v c

/-- **C58 (local).** A step on sample `i` leaves every feature outside the blocks touched by the sample as it was. -/
theorem C58_local (P : VRArgs K n p) (hP : P.Good) (S : Support n P.blocks.nb) (hS : P.support = some S) (step : K) (st st' : SagaState K n p)
    (htmp : ∀ c, st.tmp c = 0) (hloc : LocalProx P.blocks P.prox) (i : Fin n) (hstep : sagaStep P S step st i = some st') (c : Fin p)
    (hc : ∀ h : Fin P.blocks.nb, InBlock P.blocks.ptr h c → ¬Touches P.A.indptr P.A.indices P.blocks.ptr i h) : st'.x c = st.x c := by
  classical
  obtain ⟨S', hS', hok⟩ := hP.support
  rw [hS] at hS'
  obtain rfl := Option.some.inj hS'
  obtain ⟨hs, hr, h⟩ := sagaStep_spec P hP hok step st (funext htmp) i
  obtain ⟨hs', hr', -, -, hmem⟩ := hok.row i
  rw [hr] at hr'
  obtain rfl := Option.some.inj hr'
  rw [h] at hstep
  obtain ⟨u, hu, hu2⟩ := Option.bind_eq_some_iff.mp hstep
  obtain rfl := Option.some.inj hu2
  show u c = st.x c
  rw [hloc _ _ _ _ _ _ hu c (fun h hin hm => hc h hin ((hmem h).mp hm))]
  unfold sagaMid
  rw [if_neg (hc _ (hP.blocks.of_spec c))]

/-- **C58 (never touched).** A feature whose block is touched by no sample keeps its initial value in the result of `minimize_saga`. -/
theorem C58_never_touched (P : VRArgs K n p) (hP : P.Good) (hloc : LocalProx P.blocks P.prox) (r : VRResult K p (SagaState K n p))
    (hr : minimizeSaga P = .ok r) (c : Fin p)
    (hc : ∀ (i : Fin n) (h : Fin P.blocks.nb), InBlock P.blocks.ptr h c → ¬Touches P.A.indptr P.A.indices P.blocks.ptr i h) : r.x c = P.x0 c := by
  obtain ⟨S, hS, -⟩ := hP.support
  have key : ∀ (step : K) (idx : List ℕ) (st : SagaState K n p), sagaEpoch P S step (sagaInit P) idx = some st → st.x c = P.x0 c := by
    intro step idx
    induction idx using List.reverseRecOn with
    | nil => intro st h; obtain rfl := Option.some.inj h; rfl
    | append_singleton idx k ih =>
      intro st h
      rw [sagaEpoch_append] at h
      obtain ⟨s, hs, h2⟩ := Option.bind_eq_some_iff.mp h
      have h2' : sagaStep P S step s k = some st := by
        unfold sagaEpoch at h2
        cases hq : sagaStep P S step s k with
        | none => rw [List.foldlM_cons, hq] at h2; simp at h2
        | some q => rw [List.foldlM_cons, hq] at h2; simpa using h2
      have hk := sagaStep_lt h2'
      have hM := sagaMem P hP hS step idx s hs
      rw [← ih s hs]
      exact C58_local P hP S hS step s st (fun c => by rw [hM.tmp]) hloc ⟨k, hk⟩ h2' c (hc _)
  unfold minimizeSaga at hr
  cases hst : P.stepSize with
  | none => rw [hst] at hr; simp at hr
  | some step =>
    rw [hst] at hr
    simp only at hr
    rw [hS] at hr
    simp only [orFault, bind, Except.bind] at hr
    split at hr
    · simp at hr
    · cases hm : P.maxIter with
      | zero => rw [hm] at hr; simp at hr
      | succ k =>
        rw [hm] at hr
        simp only at hr
        cases hl : sagaLoop P S step k 0 (sagaInit P) with
        | none => rw [hl] at hr; simp [orFault] at hr
        | some r' =>
          rw [hl] at hr
          simp only [orFault, Except.ok.injEq] at hr
          subst hr
          obtain ⟨h1, -, -, h4⟩ := sagaLoop_history P S step k 0 _ r' hl
          rw [h1]
          exact key step _ _ h4

/-- Feature 2 of the example is touched by no sample and keeps its value 7; the run changes feature 0. -/
example : ∃ r, minimizeSaga exSaga = .ok r ∧ r.x 2 = 7 ∧ r.x 0 ≠ 1 := by
  have h : (match minimizeSaga exSaga with
    | .ok r => decide (r.x 2 = 7 ∧ r.x 0 ≠ 1)
    | .error _ => false) = true := by decide +kernel
  cases hr : minimizeSaga exSaga with
  | error e => rw [hr] at h; simp at h
  | ok r => rw [hr] at h; exact ⟨r, rfl, of_decide_eq_true h⟩

end Unbiased

/-! ### C59 -/

section Fixed
variable {n p : ℕ}

/-- `prox` computes, without access out of range, the proximal point of the weighted penalties of the listed blocks. -/
def IsBlockProx {K : Type} [Field K] [LinearOrder K] {nb : ℕ} (pen : Fin nb → (Fin p → K) → K) (prox : SparseProx K p) : Prop :=
  ∀ (m : ℕ) (d : Fin m → K) (step : K) (hs : List ℕ) (v : Fin p → K), (∀ h, 0 ≤ d h) → 0 ≤ step → hs.Nodup → (∀ h ∈ hs, h < nb ∧ h < m) →
    ∃ u, prox m d step hs v = some u ∧ IsProx (listedPen pen (getD0 d) hs) step v u

theorem supWeights_nonneg {K : Type} [Field K] [LinearOrder K] [IsStrictOrderedRing K] (n : ℕ) (bs : List ℕ) (h : Fin (supWidth bs)) :
    (0 : K) ≤ supWeights n bs h := by
  unfold supWeights
  split
  · exact zero_le_one
  · exact div_nonneg (Nat.cast_nonneg _) (Nat.cast_nonneg _)

theorem listed_lt_width {K : Type} [Field K] {A : CsrMat K n p} {B : BlockMat} {hB : GoodBlocks B p} {S : Support n B.nb} (hok : SupportOk A hB S)
    {i : Fin n} {hs : List ℕ} (hlt : ∀ h ∈ hs, h < B.nb) (hmemb : ∀ h : Fin B.nb, h.val ∈ hs ↔ Touches A.indptr A.indices B.ptr i h) :
    ∀ h ∈ hs, h < supWidth S.bs := by
  intro h hh
  have := (hok.weight ((hmemb ⟨h, hlt h hh⟩).mp hh)).2
  by_contra hc
  rw [show rd (supWeights n S.bs : Fin (supWidth S.bs) → K) h = none from dif_neg hc] at this
  simp at this

/-- A proximal step along the reweighted direction `G` on the blocks of sample `i` stays at `x` iff the blocks of the sample satisfy the optimality
condition for `G`. -/
theorem prox_fixed_iff {K : Type} [Field K] [LinearOrder K] [IsStrictOrderedRing K] {A : CsrMat K n p} {B : BlockMat} (hB : GoodBlocks B p)
    {S : Support n B.nb} (hok : SupportOk A hB S) {pen : Fin B.nb → (Fin p → K) → K} (hpen : IsBlockPenalty B.ptr pen) {step : K} (hstep : 0 < step)
    {i : Fin n} {hs : List ℕ} (hlt : ∀ h ∈ hs, h < B.nb) (hmemb : ∀ h : Fin B.nb, h.val ∈ hs ↔ Touches A.indptr A.indices B.ptr i h)
    (x v u G : Fin p → K) (hv : ∀ c, Near A hB i c → v c = x c - step * (blockWeight A hB c * G c)) (hv2 : ∀ c, ¬Near A hB i c → v c = x c)
    (hup : IsProx (listedPen pen (getD0 (supWeights n S.bs : Fin (supWidth S.bs) → K)) hs) step v u) :
    u = x ↔ ∀ h : Fin B.nb, Touches A.indptr A.indices B.ptr i h → ∀ y : Fin p → K,
        pen h x ≤ pen h y + ∑ c, if hB.of c = h then G c * (y c - x c) else 0 := by
  classical
  have hw := listed_lt_width hok hlt hmemb
  have hwt : ∀ h : Fin B.nb, h.val ∈ hs → ∀ c, hB.of c = h → getD0 (supWeights n S.bs : Fin (supWidth S.bs) → K) h.val = blockWeight A hB c := by
    intro h hh c hc
    have h1 := hok.weight ((hmemb h).mp hh)
    rw [rd_eq_getD0 _ (hw _ hh)] at h1
    rw [Option.some.inj h1.2, ← hc]; rfl
  have hposw : ∀ h : Fin B.nb, h.val ∈ hs → 0 < getD0 (supWeights n S.bs : Fin (supWidth S.bs) → K) h.val := by
    intro h hh
    have h1 := hok.weight ((hmemb h).mp hh)
    rw [rd_eq_getD0 _ (hw _ hh)] at h1
    rw [Option.some.inj h1.2]
    exact div_pos (by exact_mod_cast i.pos) (by exact_mod_cast h1.1)
  have hiff := isProx_listed_iff hB hpen (w := getD0 (supWeights n S.bs : Fin (supWidth S.bs) → K)) (hs := hs)
    (fun h hh => by rw [getD0_lt _ (hw h hh)]; exact supWeights_nonneg n S.bs _) hstep.le v x
  have hsum : ∀ h : Fin B.nb, h.val ∈ hs → ∀ y : Fin p → K, (∑ c, if hB.of c = h then (v c - x c) * (y c - x c) else 0) =
      -(step * getD0 (supWeights n S.bs : Fin (supWidth S.bs) → K) h.val * ∑ c, if hB.of c = h then G c * (y c - x c) else 0) := by
    intro h hh y
    rw [Finset.mul_sum, ← Finset.sum_neg_distrib]
    refine Finset.sum_congr rfl fun c _ => ?_
    by_cases hc : hB.of c = h
    · rw [if_pos hc, if_pos hc, hv c ((hmemb _).mp (by rw [hc]; exact hh)), hwt h hh c hc]; ring
    · rw [if_neg hc, if_neg hc]; ring
  constructor
  · intro hux h ht y
    have hin : h.val ∈ hs := (hmemb h).mpr ht
    rw [hux] at hup
    have h1 := (hiff.mp hup).2 h hin y
    rw [hsum h hin y] at h1
    have hpos := mul_pos hstep (hposw h hin)
    have h2 : (step * getD0 (supWeights n S.bs : Fin (supWidth S.bs) → K) h.val) * pen h x ≤
        (step * getD0 (supWeights n S.bs : Fin (supWidth S.bs) → K) h.val) * (pen h y + ∑ c, if hB.of c = h then G c * (y c - x c) else 0) := by
      linarith
    exact le_of_mul_le_mul_left h2 hpos
  · intro hall
    have hx : IsProx (listedPen pen (getD0 (supWeights n S.bs : Fin (supWidth S.bs) → K)) hs) step v x := by
      refine hiff.mpr ⟨fun c hc => (hv2 c fun h => hc ((hmemb _).mpr h)).symm, fun h hh y => ?_⟩
      rw [hsum h hh y]
      have := mul_le_mul_of_nonneg_left (hall h ((hmemb h).mp hh) y) (mul_pos hstep (hposw h hh)).le
      linarith
    by_contra hne
    have h1 := hup.2 x trivial (fun h => hne h.symm)
    have h2 := hx.2 u trivial hne
    exact lt_asymm h1 h2

/-- What a step from a state with up-to-date memory does. -/
theorem sagaStep_at {K : Type} [Field K] [LinearOrder K] [IsStrictOrderedRing K] (P : VRArgs K n p) (hP : P.Good) {S : Support n P.blocks.nb}
    (hok : SupportOk P.A hP.blocks S) {pen : Fin P.blocks.nb → (Fin p → K) → K} (hpen : IsBlockPenalty P.blocks.ptr pen)
    (hprox : IsBlockProx pen P.prox) {step : K} (hstep : 0 < step) (st : SagaState K n p)
    (havg : ∀ c : Fin p, st.avg c = (∑ i, st.mem i * P.A.ent i c) / (n : K)) (htmp : ∀ c, st.tmp c = 0)
    (hmem : ∀ i : Fin n, st.mem i = P.deriv (∑ c : Fin p, P.A.ent i c * st.x c) (P.b i)) (i : Fin n) :
    ∃ u, sagaStep P S step st i = some { st with x := u } ∧
      (u = st.x ↔ ∀ h : Fin P.blocks.nb, Touches P.A.indptr P.A.indices P.blocks.ptr i h → ∀ y : Fin p → K,
        pen h st.x ≤ pen h y + ∑ c, if hP.blocks.of c = h then
          finiteSumGrad (fun i c => P.A.ent i c) P.b P.deriv P.alpha st.x c * (y c - st.x c) else 0) := by
  classical
  obtain ⟨hs, hr, hspec⟩ := sagaStep_spec P hP hok step st (funext htmp) i
  obtain ⟨hs', hr', hnd, hlt, hmemb⟩ := hok.row i
  rw [hr] at hr'
  obtain rfl := Option.some.inj hr'
  have hw := listed_lt_width hok hlt hmemb
  obtain ⟨u, hu, hup⟩ := hprox _ (supWeights n S.bs) step hs (sagaMid P hP step st i) (supWeights_nonneg n S.bs) hstep.le hnd
    (fun h hh => ⟨hlt h hh, hw h hh⟩)
  have hg : P.gi st.x i = st.mem i := (hmem i).symm
  refine ⟨u, ?_, prox_fixed_iff hP.blocks hok hpen hstep hlt hmemb st.x (sagaMid P hP step st i) u _ (fun c hc => ?_) (fun c hc => ?_) hup⟩
  · rw [hspec, hu, hg]
    simp only [Option.bind_some, sub_self, zero_mul, zero_div, add_zero, Function.update_eq_self]
    congr 1
    cases st
    simp only at htmp
    congr 1
    exact funext fun c => (htmp c).symm
  · unfold sagaMid
    rw [if_pos hc, hg, havg c]
    unfold finiteSumGrad
    simp only [hmem]
    ring
  · unfold sagaMid
    rw [if_neg hc]

/-- **C59 (minimisers are fixed).** Differentiable losses, convex block penalties: at a minimiser of the regularised objective, with a memory table that
holds the derivatives there, every step on every sample leaves the whole state unchanged. -/
theorem C59_minimiser_fixed (P : VRArgs ℝ n p) (hP : P.Good) (S : Support n P.blocks.nb) (hS : P.support = some S)
    (pen : Fin P.blocks.nb → (Fin p → ℝ) → ℝ) (hpen : IsBlockPenalty P.blocks.ptr pen) (hprox : IsBlockProx pen P.prox)
    (f : ℝ → ℝ → ℝ) (hf : ∀ t b, HasDerivAt (fun s => f s b) (P.deriv t b) t) (step : ℝ) (hstep : 0 < step) (st : SagaState ℝ n p)
    (havg : ∀ c : Fin p, st.avg c = (∑ i, st.mem i * P.A.ent i c) / (n : ℝ)) (htmp : ∀ c, st.tmp c = 0)
    (hmem : ∀ i : Fin n, st.mem i = P.deriv (∑ c : Fin p, P.A.ent i c * st.x c) (P.b i))
    (hmin : ∀ y, finiteSum (fun i (c : Fin p) => P.A.ent i c) P.b f P.alpha st.x + ∑ h, pen h st.x ≤
      finiteSum (fun i (c : Fin p) => P.A.ent i c) P.b f P.alpha y + ∑ h, pen h y) (i : Fin n) :
    sagaStep P S step st i = some st := by
  obtain ⟨S', hS', hok⟩ := hP.support
  rw [hS] at hS'
  obtain rfl := Option.some.inj hS'
  obtain ⟨u, hu, hiff⟩ := sagaStep_at P hP hok hpen hprox hstep st havg htmp hmem i
  have hopt := opt_of_min (fun i (c : Fin p) => P.A.ent i c) P.b f P.deriv hf P.alpha (fun y => ∑ h, pen h y)
    (fun x y t h0 h1 => by
      rw [Finset.mul_sum, Finset.mul_sum, ← Finset.sum_add_distrib]
      exact Finset.sum_le_sum fun h _ => hpen.conv h x y t h0 h1) st.x hmin
  have hblk := (opt_blocks hP.blocks hpen _ st.x).mp hopt
  rw [hu, hiff.mpr fun h _ y => hblk h y]

/-- **C59 (fixed points are optimal).** If no sample moves `x` and the memory holds the derivatives at `x`, then every touched block satisfies its
optimality condition: `x` minimises `y ↦ pen_h y + ⟨grad, y⟩` over changes of the features of block `h`. -/
theorem C59_fixed_optimal {K : Type} [Field K] [LinearOrder K] [IsStrictOrderedRing K] (P : VRArgs K n p) (hP : P.Good) (S : Support n P.blocks.nb)
    (hS : P.support = some S) (pen : Fin P.blocks.nb → (Fin p → K) → K) (hpen : IsBlockPenalty P.blocks.ptr pen) (hprox : IsBlockProx pen P.prox)
    (step : K) (hstep : 0 < step) (st : SagaState K n p) (havg : ∀ c : Fin p, st.avg c = (∑ i, st.mem i * P.A.ent i c) / (n : K))
    (htmp : ∀ c, st.tmp c = 0) (hmem : ∀ i : Fin n, st.mem i = P.deriv (∑ c : Fin p, P.A.ent i c * st.x c) (P.b i))
    (hfix : ∀ i : Fin n, ∀ st', sagaStep P S step st i = some st' → st'.x = st.x) (i : Fin n) (h : Fin P.blocks.nb)
    (ht : Touches P.A.indptr P.A.indices P.blocks.ptr i h) (y : Fin p → K) (hy : ∀ c : Fin p, ¬InBlock P.blocks.ptr h c → y c = st.x c) :
    pen h st.x ≤ pen h y + dot (finiteSumGrad (fun i c => P.A.ent i c) P.b P.deriv P.alpha st.x) (y - st.x) := by
  obtain ⟨S', hS', hok⟩ := hP.support
  rw [hS] at hS'
  obtain rfl := Option.some.inj hS'
  obtain ⟨u, hu, hiff⟩ := sagaStep_at P hP hok hpen hprox hstep st havg htmp hmem i
  have hux : u = st.x := hfix i _ hu
  have h1 := hiff.mp hux h ht y
  refine h1.trans (le_of_eq ?_)
  congr 1
  unfold dot
  refine Finset.sum_congr rfl fun c _ => ?_
  by_cases hc : hP.blocks.of c = h
  · rw [if_pos hc]; rfl
  · rw [if_neg hc, Pi.sub_apply, hy c (fun hin => hc (hP.blocks.of_eq hin)), sub_self, mul_zero]

/-- **C59 (fixed points are solutions).** If moreover every block is touched, the losses are convex and `alpha ≥ 0`, then `x` is a minimiser. -/
theorem C59_fixed_minimiser {K : Type} [Field K] [LinearOrder K] [IsStrictOrderedRing K] (P : VRArgs K n p) (hP : P.Good) (S : Support n P.blocks.nb) (hS : P.support = some S)
    (pen : Fin P.blocks.nb → (Fin p → K) → K) (hpen : IsBlockPenalty P.blocks.ptr pen) (hprox : IsBlockProx pen P.prox)
    (f : K → K → K) (hf : ∀ s t b, f t b + P.deriv t b * (s - t) ≤ f s b) (halpha : 0 ≤ P.alpha) (step : K) (hstep : 0 < step)
    (st : SagaState K n p) (havg : ∀ c : Fin p, st.avg c = (∑ i, st.mem i * P.A.ent i c) / (n : K)) (htmp : ∀ c, st.tmp c = 0)
    (hmem : ∀ i : Fin n, st.mem i = P.deriv (∑ c : Fin p, P.A.ent i c * st.x c) (P.b i))
    (hall : ∀ h, ∃ i, Touches P.A.indptr P.A.indices P.blocks.ptr i h)
    (hfix : ∀ i : Fin n, ∀ st', sagaStep P S step st i = some st' → st'.x = st.x) (y : Fin p → K) :
    finiteSum (fun i (c : Fin p) => P.A.ent i c) P.b f P.alpha st.x + ∑ h, pen h st.x ≤
      finiteSum (fun i (c : Fin p) => P.A.ent i c) P.b f P.alpha y + ∑ h, pen h y := by
  obtain ⟨S', hS', hok⟩ := hP.support
  rw [hS] at hS'
  obtain rfl := Option.some.inj hS'
  refine min_of_opt _ _ f P.deriv hf P.alpha halpha (fun y => ∑ h, pen h y) st.x ?_ y
  refine (opt_blocks hP.blocks hpen _ st.x).mpr fun h y => ?_
  obtain ⟨i, hi⟩ := hall h
  obtain ⟨u, hu, hiff⟩ := sagaStep_at P hP hok hpen hprox hstep st havg htmp hmem i
  exact hiff.mp (hfix i _ hu) h hi y

end Fixed

end Copt
