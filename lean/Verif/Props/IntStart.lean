import Verif.Model.IntStart
import Verif.Props.Saga
import Mathlib.Algebra.Order.Floor.Ring
import Mathlib.Data.Rat.Floor

/-! # C120: the type of the starting array in SAGA, SVRG and the primal-dual method -/

set_option linter.unusedSectionVars false

namespace Copt

open Spec

/-! ### Comparing conversions -/

section Compare

variable {K : Type} [Field K] {n p : ℕ}

/-- Whatever the first conversion returns, the second one returns too. -/
def Refines {α : Type} (s t : α → Option α) : Prop := ∀ v w, s v = some w → t v = some w

theorem foldlM_refines {α σ : Type} {f g : σ → α → Option σ} (h : ∀ s a r, f s a = some r → g s a = some r) :
    ∀ (l : List α) (s r : σ), l.foldlM f s = some r → l.foldlM g s = some r := by
  intro l
  induction l with
  | nil => intro s r h; exact h
  | cons a l ih =>
    intro s r hr
    rw [List.foldlM_cons] at hr ⊢
    obtain ⟨t, h1, h2⟩ := Option.bind_eq_some_iff.mp hr
    exact Option.bind_eq_some_iff.mpr ⟨t, h _ _ _ h1, ih _ _ h2⟩

theorem stepBodyS_refines {s t : K → Option K} (hst : Refines s t) {D : ℕ} {d : Fin D → K} {avg tmp : Fin p → K} {alpha step : K} {h : ℕ}
    (x : Fin p → K) (j : ℕ) (r : Fin p → K) (hr : stepBodyS s d avg tmp alpha step h x j = some r) :
    stepBodyS t d avg tmp alpha step h x j = some r := by
  unfold stepBodyS at hr ⊢
  simp only [Option.bind_eq_bind, Option.bind_eq_some_iff] at hr ⊢
  obtain ⟨dh, h1, a, h2, v, h3, tt, h4, w, h5, h6⟩ := hr
  exact ⟨dh, h1, a, h2, v, h3, tt, h4, w, hst _ _ h5, h6⟩

theorem forBlocks_refines {σ : Type} {B : BlockMat} {f g : ℕ → σ → ℕ → Option σ} (h : ∀ k s a r, f k s a = some r → g k s a = some r)
    (hs : List ℕ) (s r : σ) (hr : forBlocks B f hs s = some r) : forBlocks B g hs s = some r := by
  unfold forBlocks at hr ⊢
  refine foldlM_refines ?_ hs s r hr
  intro s k r hr
  simp only [Option.bind_eq_bind, Option.bind_eq_some_iff] at hr ⊢
  obtain ⟨lo, h1, hi, h2, h3⟩ := hr
  exact ⟨lo, h1, hi, h2, foldlM_refines (h k) _ _ _ h3⟩

theorem storeAll_eq {s : K → Option K} {x y : Fin p → K} : storeAll s x = some y ↔ ∀ j, s (x j) = some (y j) := by
  unfold storeAll
  constructor
  · intro h j
    split at h
    · rw [Option.some.injEq] at h
      rw [← h, Option.some_get]
    · simp at h
  · intro h
    have h' : ∀ j, (s (x j)).isSome := fun j => by rw [h j]; rfl
    rw [dif_pos h']
    congr 1
    funext j
    apply Option.some.inj
    rw [Option.some_get, h j]

theorem storeAll_refines {s t : K → Option K} (hst : Refines s t) (x y : Fin p → K) (h : storeAll s x = some y) : storeAll t x = some y := by
  rw [storeAll_eq] at h ⊢
  exact fun j => hst _ _ (h j)

theorem sagaStepS_refines {s t : K → Option K} (hst : Refines s t) {P : VRArgs K n p} {S : Support n P.blocks.nb} {step : K}
    (st : SagaState K n p) (i : ℕ) (r : SagaState K n p) (hr : sagaStepS s P S step st i = some r) : sagaStepS t P S step st i = some r := by
  unfold sagaStepS at hr ⊢
  simp only [Option.bind_eq_bind, Option.bind_eq_some_iff] at hr ⊢
  obtain ⟨row, h1, dot, h2, bi, h3, mi, h4, tmp, h5, hs, h6, x, h7, x', h8, x'', h9, m, h10, mem, h11, h12⟩ := hr
  exact ⟨row, h1, dot, h2, bi, h3, mi, h4, tmp, h5, hs, h6, x, forBlocks_refines (fun k => stepBodyS_refines hst) _ _ _ h7, x', h8, x'',
    storeAll_refines hst _ _ h9, m, h10, mem, h11, h12⟩

theorem svrgStepS_refines {s t : K → Option K} (hst : Refines s t) {P : VRArgs K n p} {S : Support n P.blocks.nb} {step : K}
    {snap avg : Fin p → K} (st : SvrgState K p) (i : ℕ) (r : SvrgState K p) (hr : svrgStepS s P S step snap avg st i = some r) :
    svrgStepS t P S step snap avg st i = some r := by
  unfold svrgStepS at hr ⊢
  simp only [Option.bind_eq_bind, Option.bind_eq_some_iff] at hr ⊢
  obtain ⟨row, h1, dot, h2, dotOld, h2', bi, h3, tmp, h5, hs, h6, x, h7, x', h8, x'', h9, h12⟩ := hr
  exact ⟨row, h1, dot, h2, dotOld, h2', bi, h3, tmp, h5, hs, h6, x, forBlocks_refines (fun k => stepBodyS_refines hst) _ _ _ h7, x', h8, x'',
    storeAll_refines hst _ _ h9, h12⟩

variable [LinearOrder K]

theorem sagaLoopS_refines {s t : K → Option K} (hst : Refines s t) {P : VRArgs K n p} {S : Support n P.blocks.nb} {step : K} :
    ∀ (rem it : ℕ) (st : SagaState K n p) (r : VRResult K p (SagaState K n p)),
      sagaLoopS s P S step rem it st = some r → sagaLoopS t P S step rem it st = some r := by
  intro rem
  induction rem with
  | zero =>
    intro it st r hr
    unfold sagaLoopS at hr ⊢
    obtain ⟨a, h1, h2⟩ := Option.bind_eq_some_iff.mp hr
    exact Option.bind_eq_some_iff.mpr ⟨a, foldlM_refines (sagaStepS_refines hst) _ _ _ h1, h2⟩
  | succ rem ih =>
    intro it st r hr
    unfold sagaLoopS at hr ⊢
    obtain ⟨a, h1, h2⟩ := Option.bind_eq_some_iff.mp hr
    refine Option.bind_eq_some_iff.mpr ⟨a, foldlM_refines (sagaStepS_refines hst) _ _ _ h1, ?_⟩
    split at h2
    · rename_i h; rw [if_pos h]; exact h2
    · rename_i h; rw [if_neg h]; exact ih _ _ _ h2

theorem svrgLoopS_refines {s t : K → Option K} (hst : Refines s t) {P : VRArgs K n p} {S : Support n P.blocks.nb} {step : K} :
    ∀ (rem it : ℕ) (st : SvrgState K p) (r : VRResult K p (SvrgState K p)),
      svrgLoopS s P S step rem it st = some r → svrgLoopS t P S step rem it st = some r := by
  intro rem
  induction rem with
  | zero =>
    intro it st r hr
    unfold svrgLoopS at hr ⊢
    simp only [Option.bind_eq_bind, Option.bind_eq_some_iff] at hr ⊢
    obtain ⟨g, h0, a, h1, h2⟩ := hr
    exact ⟨g, h0, a, foldlM_refines (svrgStepS_refines hst) _ _ _ h1, h2⟩
  | succ rem ih =>
    intro it st r hr
    unfold svrgLoopS at hr ⊢
    simp only [Option.bind_eq_bind, Option.bind_eq_some_iff] at hr ⊢
    obtain ⟨g, h0, a, h1, h2⟩ := hr
    refine ⟨g, h0, a, foldlM_refines (svrgStepS_refines hst) _ _ _ h1, ?_⟩
    split at h2
    · rename_i h; rw [if_pos h]; exact h2
    · rename_i h; rw [if_neg h]; exact ih _ _ _ h2

theorem orFault_ok {α : Type} {o : Option α} {a : α} : orFault o = .ok a ↔ o = some a := by
  cases o <;> simp [orFault]

theorem minimizeSagaS_refines {s t : K → Option K} (hst : Refines s t) {P : VRArgs K n p} {r : VRResult K p (SagaState K n p)}
    (hr : minimizeSagaS s P = .ok r) : minimizeSagaS t P = .ok r := by
  unfold minimizeSagaS at hr ⊢
  cases hst' : P.stepSize with
  | none => rw [hst'] at hr; simp at hr
  | some step =>
    rw [hst'] at hr
    simp only at hr ⊢
    cases hS : orFault P.support with
    | error e => rw [hS] at hr; simp [bind, Except.bind] at hr
    | ok S =>
      rw [hS] at hr
      simp only [bind, Except.bind] at hr ⊢
      split at hr
      · simp at hr
      · rename_i hb
        rw [if_neg hb]
        cases hm : P.maxIter with
        | zero => rw [hm] at hr; simp at hr
        | succ k =>
          rw [hm] at hr
          simp only at hr ⊢
          rw [orFault_ok] at hr ⊢
          exact sagaLoopS_refines hst _ _ _ _ hr

theorem minimizeSvrgS_refines {s t : K → Option K} (hst : Refines s t) {P : VRArgs K n p} {r : VRResult K p (SvrgState K p)}
    (hr : minimizeSvrgS s P = .ok r) : minimizeSvrgS t P = .ok r := by
  unfold minimizeSvrgS at hr ⊢
  cases hst' : P.stepSize with
  | none => rw [hst'] at hr; simp at hr
  | some step =>
    rw [hst'] at hr
    simp only at hr ⊢
    cases hS : orFault P.support with
    | error e => rw [hS] at hr; simp [bind, Except.bind] at hr
    | ok S =>
      rw [hS] at hr
      simp only [bind, Except.bind] at hr ⊢
      split at hr
      · simp at hr
      · rename_i hb
        rw [if_neg hb]
        cases hm : P.maxIter with
        | zero => rw [hm] at hr; simp at hr
        | succ k =>
          rw [hm] at hr
          simp only at hr ⊢
          rw [orFault_ok] at hr ⊢
          exact svrgLoopS_refines hst _ _ _ _ hr

/-- The model with the trivial conversion is the model of `Model/Randomized`. -/
theorem sagaStepS_some (P : VRArgs K n p) (S : Support n P.blocks.nb) (step : K) : sagaStepS some P S step = sagaStep P S step := by
  funext st i
  have h : ∀ x : Fin p → K, storeAll some x = some x := fun x => storeAll_eq.mpr fun _ => rfl
  have hb : ∀ (D : ℕ) (d : Fin D → K) (avg tmp : Fin p → K) (alpha step : K), stepBodyS some d avg tmp alpha step = stepBody d avg tmp alpha step := by
    intros; funext h x j; rfl
  unfold sagaStepS sagaStep
  simp only [h, hb, Option.bind_eq_bind, Option.bind_some]

theorem svrgStepS_some (P : VRArgs K n p) (S : Support n P.blocks.nb) (step : K) (snap avg : Fin p → K) :
    svrgStepS some P S step snap avg = svrgStep P S step snap avg := by
  funext st i
  have h : ∀ x : Fin p → K, storeAll some x = some x := fun x => storeAll_eq.mpr fun _ => rfl
  have hb : ∀ (D : ℕ) (d : Fin D → K) (avg tmp : Fin p → K) (alpha step : K), stepBodyS some d avg tmp alpha step = stepBody d avg tmp alpha step := by
    intros; funext h x j; rfl
  unfold svrgStepS svrgStep
  simp only [h, hb, Option.bind_eq_bind, Option.bind_some]

theorem minimizeSagaS_some (P : VRArgs K n p) : minimizeSagaS some P = minimizeSaga P := by
  have h : ∀ (S : Support n P.blocks.nb) (step : K) (rem it : ℕ) (st : SagaState K n p),
      sagaLoopS some P S step rem it st = sagaLoop P S step rem it st := by
    intro S step rem
    induction rem with
    | zero => intro it st; unfold sagaLoopS sagaLoop sagaEpoch; rw [sagaStepS_some]
    | succ rem ih => intro it st; unfold sagaLoopS sagaLoop sagaEpoch; rw [sagaStepS_some]; simp only [ih]
  unfold minimizeSagaS minimizeSaga
  simp only [h]
  rfl

theorem minimizeSvrgS_some (P : VRArgs K n p) : minimizeSvrgS some P = minimizeSvrg P := by
  have h : ∀ (S : Support n P.blocks.nb) (step : K) (rem it : ℕ) (st : SvrgState K p),
      svrgLoopS some P S step rem it st = svrgLoop P S step rem it st := by
    intro S step rem
    induction rem with
    | zero => intro it st; unfold svrgLoopS svrgLoop svrgEpoch; simp only [svrgStepS_some]
    | succ rem ih => intro it st; unfold svrgLoopS svrgLoop svrgEpoch; simp only [svrgStepS_some, ih]
  unfold minimizeSvrgS minimizeSvrg
  simp only [h]
  rfl

open Classical in
/-- Numbers of the type are kept, everything else is refused. -/
noncomputable def onlyExact {α : Type} (I : Set α) (v : α) : Option α := if v ∈ I then some v else none

theorem onlyExact_refines {α : Type} {I : Set α} {conv : α → α} (h : ∀ v ∈ I, conv v = v) : Refines (onlyExact I) fun v => some (conv v) := by
  intro v w hw
  unfold onlyExact at hw
  split at hw
  · rename_i hv
    simp only [Option.some.injEq] at hw ⊢
    rw [h v hv, hw]
  · simp at hw

/-- **C120 (partial).** SAGA and SVRG do not depend on the type of the starting array as long as every number assigned to an entry of `x`
is represented exactly by that type (the set `I`, which the conversion `conv` leaves unchanged): if the run that refuses any other
assignment returns, so do the floating point run and the run with the conversion, with the same result.  Missing: assignments that are
not represented exactly, for which the claim is false (`C120_saga_refuted`, `C120_svrg_refuted`). -/
theorem C120_exact_partial (P : VRArgs K n p) {I : Set K} {conv : K → K} (hconv : ∀ v ∈ I, conv v = v) :
    (∀ r, minimizeSagaS (onlyExact I) P = .ok r → minimizeSaga P = .ok r ∧ minimizeSagaS (fun v => some (conv v)) P = .ok r) ∧
    (∀ r, minimizeSvrgS (onlyExact I) P = .ok r → minimizeSvrg P = .ok r ∧ minimizeSvrgS (fun v => some (conv v)) P = .ok r) := by
  refine ⟨fun r h => ⟨?_, minimizeSagaS_refines (onlyExact_refines hconv) h⟩, fun r h => ⟨?_, minimizeSvrgS_refines (onlyExact_refines hconv) h⟩⟩
  · rw [← minimizeSagaS_some]
    exact minimizeSagaS_refines (onlyExact_refines (conv := id) fun _ _ => rfl) h
  · rw [← minimizeSvrgS_some]
    exact minimizeSvrgS_refines (onlyExact_refines (conv := id) fun _ _ => rfl) h

end Compare

/-! ### Truncation -/

/-- The conversion of a floating point number to an integer: towards zero. -/
def truncK {K : Type} [Field K] [LinearOrder K] [FloorRing K] (v : K) : K := if 0 ≤ v then ((⌊v⌋ : ℤ) : K) else ((⌈v⌉ : ℤ) : K)

section Zero

variable {K : Type} [Field K] [LinearOrder K] [IsStrictOrderedRing K] {n p : ℕ}

theorem truncK_small [FloorRing K] {v : K} (h : |v| < 1) : truncK v = 0 := by
  obtain ⟨h1, h2⟩ := abs_lt.mp h
  unfold truncK
  by_cases h0 : 0 ≤ v
  · rw [if_pos h0, Int.floor_eq_zero_iff.mpr ⟨h0, h2⟩]; simp
  · rw [if_neg h0, Int.ceil_eq_zero_iff.mpr ⟨by linarith, by linarith⟩]; simp

theorem stepBodyS_zero {store : K → Option K} (hstore : ∀ v, |v| < 1 → store v = some 0) {D : ℕ} {d : Fin D → K} {avg tmp : Fin p → K}
    {alpha step : K} (hsmall : ∀ h c, |step * (tmp c + d h * avg c)| < 1) {h : ℕ} (y y' : Fin p → K) (j : ℕ)
    (hy : stepBody d avg tmp alpha step h y j = some y') : stepBodyS store d avg tmp alpha step h (fun _ => 0) j = some fun _ => 0 := by
  unfold stepBody at hy
  simp only [Option.bind_eq_bind, Option.bind_eq_some_iff] at hy
  obtain ⟨dh, h1, a, h2, v, h3, t, h4, h5⟩ := hy
  unfold rd at h1 h2 h4
  have hh : h < D := by
    by_contra hc
    rw [dif_neg hc] at h1; simp at h1
  have hj : j < p := by
    by_contra hc
    rw [dif_neg hc] at h2; simp at h2
  unfold stepBodyS
  simp only [rd, dif_pos hh, dif_pos hj, Option.bind_eq_bind, Option.bind_some]
  rw [hstore]
  · simp only [Option.bind_some, wr, dif_pos hj]
    rw [Option.some.injEq]
    funext c
    by_cases hc : c = ⟨j, hj⟩
    · rw [hc, Function.update_self]
    · rw [Function.update_of_ne hc]
  · have := hsmall ⟨h, hh⟩ ⟨j, hj⟩
    rw [zero_sub, abs_neg, mul_zero, add_zero]
    exact this

theorem forBlocks_zero {store : K → Option K} (hstore : ∀ v, |v| < 1 → store v = some 0) {D : ℕ} {d : Fin D → K} {avg tmp : Fin p → K}
    {alpha step : K} (hsmall : ∀ h c, |step * (tmp c + d h * avg c)| < 1) {B : BlockMat} :
    ∀ (hs : List ℕ) (y y' : Fin p → K), forBlocks B (stepBody d avg tmp alpha step) hs y = some y' →
      forBlocks B (stepBodyS store d avg tmp alpha step) hs (fun _ => 0) = some fun _ => 0 := by
  have inner : ∀ (h : ℕ) (l : List ℕ) (y y' : Fin p → K), l.foldlM (stepBody d avg tmp alpha step h) y = some y' →
      l.foldlM (stepBodyS store d avg tmp alpha step h) (fun _ => 0) = some fun _ => 0 := by
    intro h l
    induction l with
    | nil => intro y y' _; rfl
    | cons j l ih =>
      intro y y' hy
      rw [List.foldlM_cons] at hy ⊢
      obtain ⟨z, h1, h2⟩ := Option.bind_eq_some_iff.mp hy
      rw [stepBodyS_zero hstore hsmall y z j h1]
      exact ih _ _ h2
  intro hs
  induction hs with
  | nil => intro y y' _; rfl
  | cons h hs ih =>
    intro y y' hy
    unfold forBlocks at hy ih ⊢
    rw [List.foldlM_cons] at hy ⊢
    obtain ⟨z, h1, h2⟩ := Option.bind_eq_some_iff.mp hy
    simp only [Option.bind_eq_bind, Option.bind_eq_some_iff] at h1
    obtain ⟨lo, e1, hi, e2, e3⟩ := h1
    simp only [Option.bind_eq_bind, e1, e2, Option.bind_some]
    rw [inner h _ _ _ e3]
    exact ih _ _ h2

theorem supWeights_le (bs : List ℕ) (hn : 0 < n) (h : Fin (supWidth bs)) : |(supWeights n bs : Fin (supWidth bs) → K) h| ≤ n := by
  have hn1 : (1 : K) ≤ n := by exact_mod_cast hn
  unfold supWeights
  split
  · rw [abs_one]; exact hn1
  · rename_i hc
    have hc1 : (1 : K) ≤ (bs.count h.val : K) := by exact_mod_cast Nat.pos_of_ne_zero hc
    rw [abs_of_nonneg (by positivity)]
    exact div_le_self (by positivity) hc1

/-- The state of the integer run that started from zeros: the memory of a sample is empty or the derivative at zero. -/
structure ZeroRun (P : VRArgs K n p) (st : SagaState K n p) : Prop where
  x : st.x = fun _ => 0
  tmp : st.tmp = fun _ => 0
  mem : ∀ i, st.mem i = 0 ∨ st.mem i = P.deriv 0 (P.b i)
  avg : ∀ c, st.avg c = (∑ i, st.mem i * P.A.ent i c) / (n : K)

theorem gi_zero (P : VRArgs K n p) (i : Fin n) : P.gi (fun _ => 0) i = P.deriv 0 (P.b i) := by
  unfold VRArgs.gi; simp

theorem sagaStepS_zero {P : VRArgs K n p} (hP : P.Good) {S : Support n P.blocks.nb} (hS : SupportOk P.A hP.blocks S) {step M R : K}
    (hprox : P.prox = noProx) {store : K → Option K} (hstore : ∀ v, |v| < 1 → store v = some 0) (hstep : 0 ≤ step)
    (hM : ∀ i, |P.deriv 0 (P.b i)| ≤ M) (hR0 : 0 ≤ R) (hR : ∀ i (c : Fin p), |P.A.ent i c| ≤ R) (hsmall : step * (M * R * (n + 1)) < 1)
    {st : SagaState K n p} (hst : ZeroRun P st) (i : Fin n) : ∃ st', sagaStepS store P S step st i = some st' ∧ ZeroRun P st' := by
  classical
  have hn : 0 < n := i.pos
  have hnK : (0 : K) < n := by exact_mod_cast hn
  have hM0 : 0 ≤ M := le_trans (abs_nonneg _) (hM i)
  obtain ⟨hs, hr, -, -, -⟩ := hS.row i
  obtain ⟨tmp, ht, htv⟩ := rowScatter_spec hP.csr hP.nodup i (P.gi st.x i - st.mem i) st.tmp
  obtain ⟨x', hx, -, -⟩ := coefStep_spec hP.blocks hS i st.avg tmp P.alpha step hr st.x
  obtain ⟨s', hm, hm1, hm2⟩ := rowMemory_spec hP.csr i n (P.gi st.x i - st.mem i) (st.avg, tmp)
  have hgi : P.gi st.x i = P.deriv 0 (P.b i) := by rw [hst.x, gi_zero]
  have hdiff : |P.gi st.x i - st.mem i| ≤ M := by
    rw [hgi]
    rcases hst.mem i with h | h
    · rw [h, sub_zero]; exact hM i
    · rw [h, sub_self, abs_zero]; exact hM0
  have htv' : ∀ c : Fin p, tmp c = (P.gi st.x i - st.mem i) * P.A.ent i c := by
    intro c
    rw [htv c]
    by_cases h : StoresAt P.A.indptr P.A.indices i c
    · rw [if_pos h]
    · rw [if_neg h, ent_eq_zero h, hst.tmp, mul_zero]
  have htb : ∀ c, |tmp c| ≤ M * R := by
    intro c
    rw [htv' c, abs_mul]
    exact mul_le_mul hdiff (hR i c) (abs_nonneg _) hM0
  have hab : ∀ c, |st.avg c| ≤ M * R := by
    intro c
    rw [hst.avg c, abs_div, abs_of_pos hnK, div_le_iff₀ hnK]
    refine (Finset.abs_sum_le_sum_abs _ _).trans ?_
    refine (Finset.sum_le_card_nsmul _ _ (M * R) fun k _ => ?_).trans ?_
    · rw [abs_mul]
      refine mul_le_mul ?_ (hR k c) (abs_nonneg _) hM0
      rcases hst.mem k with h | h
      · rw [h, abs_zero]; exact hM0
      · rw [h]; exact hM k
    · rw [Finset.card_univ, Fintype.card_fin, nsmul_eq_mul, mul_comm]
  have hsm : ∀ (h : Fin (supWidth S.bs)) c, |step * (tmp c + (supWeights n S.bs : Fin (supWidth S.bs) → K) h * st.avg c)| < 1 := by
    intro h c
    refine lt_of_le_of_lt ?_ hsmall
    rw [abs_mul, abs_of_nonneg hstep]
    refine mul_le_mul_of_nonneg_left ?_ hstep
    refine (abs_add_le _ _).trans ?_
    rw [abs_mul]
    have := mul_le_mul (supWeights_le (K := K) S.bs hn h) (hab c) (abs_nonneg _) hnK.le
    have := htb c
    linarith
  have hx0 : forBlocks P.blocks (stepBodyS store (supWeights n S.bs) st.avg tmp P.alpha step) hs st.x = some fun _ => 0 := by
    have := forBlocks_zero hstore hsm hs st.x x' hx
    rw [← hst.x] at this ⊢
    exact this
  have hsa : storeAll store (fun _ : Fin p => (0 : K)) = some fun _ => 0 := storeAll_eq.mpr fun _ => hstore 0 (by simp)
  have hs1 : s'.1 = fun c => st.avg c + (P.gi st.x i - st.mem i) * P.A.ent i c / (n : K) := funext hm1
  have hs2 : s'.2 = fun _ => 0 := by
    funext c
    rw [hm2 c]
    by_cases h : StoresAt P.A.indptr P.A.indices i c
    · rw [if_pos h]
    · rw [if_neg h]
      show tmp c = 0
      rw [htv' c, ent_eq_zero h, mul_zero]
  refine ⟨{ x := fun _ => 0, mem := Function.update st.mem i (P.gi st.x i),
            avg := fun c => st.avg c + (P.gi st.x i - st.mem i) * P.A.ent i c / (n : K), tmp := fun _ => 0 }, ?_, rfl, rfl, ?_, ?_⟩
  · unfold sagaStepS
    rw [CsrMat.row_eq hP.csr, rd_fin P.b, rd_fin st.mem, hr]
    simp only [Option.bind_eq_bind, Option.bind_some]
    rw [rowDot_spec hP.csr]
    simp only [Option.bind_some]
    unfold VRArgs.gi at ht hm
    rw [ht]
    simp only [Option.bind_some]
    rw [hx0]
    simp only [Option.bind_some, hprox, noProx]
    rw [hsa]
    simp only [Option.bind_some]
    rw [hm]
    simp only [Option.bind_some, wr_lt st.mem i.isLt, Fin.eta, Option.pure_def, hs1, hs2]
    rfl
  · intro k
    by_cases hk : k = i
    · right; rw [hk]; simp only [Function.update_self]; exact hgi
    · simp only [Function.update_of_ne hk]; exact hst.mem k
  · intro c
    simp only
    rw [hst.avg c, ← add_div]
    congr 1
    rw [← Finset.add_sum_erase _ (fun k => st.mem k * P.A.ent k c) (Finset.mem_univ i),
      ← Finset.add_sum_erase _ (fun k => Function.update st.mem i (P.gi st.x i) k * P.A.ent k c) (Finset.mem_univ i)]
    simp only [Function.update_self]
    have : ∑ k ∈ Finset.univ.erase i, Function.update st.mem i (P.gi st.x i) k * P.A.ent k c = ∑ k ∈ Finset.univ.erase i, st.mem k * P.A.ent k c := by
      refine Finset.sum_congr rfl fun k hk => ?_
      rw [Function.update_of_ne (Finset.ne_of_mem_erase hk)]
    rw [this]
    ring

/-- **C120 (refuted for every data set).** `minimize_saga` started from an integer array of zeros (`np.zeros(p, dtype=int)`) without a penalty,
with a step small enough that no update reaches 1 (`M` bounds the derivatives of the loss at zero predictions, `R` the entries of the data): for
every data set, every order of the samples, `tol > 0` and `max_iter ≥ 1`, the call reports success after the first pass and returns the
zeros it was given, whatever the solution is. -/
theorem C120_saga_zero_start (P : VRArgs K n p) (hP : P.Good) {step M R : K} (hst : P.stepSize = some step) (hstep : 0 ≤ step)
    (hx0 : P.x0 = fun _ => 0) (hprox : P.prox = noProx) (hM : ∀ i, |P.deriv 0 (P.b i)| ≤ M) (hR0 : 0 ≤ R) (hR : ∀ i (c : Fin p), |P.A.ent i c| ≤ R)
    (hsmall : step * (M * R * (n + 1)) < 1) (hord : ∀ i ∈ P.order 0, i < n) (htol : 0 < P.tol) (hmax : 0 < P.maxIter)
    (hbs : ∀ S, P.support = some S → S.bs ≠ []) {store : K → Option K} (hstore : ∀ v, |v| < 1 → store v = some 0) :
    ∃ r, minimizeSagaS store P = .ok r ∧ r.success = true ∧ r.nit = 0 ∧ r.x = fun _ => 0 := by
  obtain ⟨S, hS, hok⟩ := hP.support
  have hrun : ∀ (l : List ℕ), (∀ i ∈ l, i < n) → ∀ st, ZeroRun P st → ∃ st', l.foldlM (sagaStepS store P S step) st = some st' ∧ ZeroRun P st' := by
    intro l
    induction l with
    | nil => intro _ st h; exact ⟨st, rfl, h⟩
    | cons i l ih =>
      intro hl st h
      obtain ⟨s, h1, h2⟩ := sagaStepS_zero hP hok hprox hstore hstep hM hR0 hR hsmall h ⟨i, hl i (by simp)⟩
      obtain ⟨s', h3, h4⟩ := ih (fun k hk => hl k (by simp [hk])) s h2
      refine ⟨s', ?_, h4⟩
      rw [List.foldlM_cons, h1]
      exact h3
  obtain ⟨st', h1, h2⟩ := hrun _ hord (sagaInit P) ⟨hx0, rfl, fun _ => Or.inl rfl, fun c => by simp [sagaInit]⟩
  refine ⟨⟨st'.x, true, 0, st'⟩, ?_, rfl, rfl, h2.x⟩
  unfold minimizeSagaS
  rw [hst, hS]
  simp only [orFault, bind, Except.bind]
  rw [if_neg (hbs S hS)]
  obtain ⟨k, hk⟩ : ∃ k, P.maxIter = k + 1 := ⟨P.maxIter - 1, by omega⟩
  rw [hk]
  simp only
  have : sagaLoopS store P S step k 0 (sagaInit P) = some ⟨st'.x, true, 0, st'⟩ := by
    unfold sagaLoopS
    rw [h1]
    simp only [Option.bind_eq_bind, Option.bind_some]
    rw [if_pos]
    · rfl
    · rw [h2.x, show (sagaInit P).x = P.x0 from rfl, hx0]
      simpa using htol
  rw [this]

end Zero

/-! ### Witnesses -/

/-- One sample, one feature: `f(x) = (x - 1/2)²/2`, starting point 0, step 1. -/
def halfArgs : VRArgs ℚ 1 1 :=
  { A := { nnz := 1, data := ![1], indices := ![0], indptr := ![0, 1] }, b := ![1 / 2], deriv := fun t b => t - b, alpha := 0,
    x0 := ![0], stepSize := some 1, blocks := BlockMat.eye 1, prox := noProx, maxIter := 10, tol := 1 / 1000, order := fun _ => [0] }

/-- **C120 (refuted, SAGA).** From the floating point array `[0.0]` the call returns the minimiser 1/2 and reports success; from the integer
array `[0]` it reports success as well, and returns 0, where the gradient is -1/2. -/
theorem C120_saga_refuted : (∃ r, minimizeSagaS some halfArgs = .ok r ∧ r.success = true ∧ r.x 0 = 1 / 2) ∧
    ∃ r, minimizeSagaS (fun v => some (truncK v)) halfArgs = .ok r ∧ r.success = true ∧ r.x 0 = 0 := by
  have get : ∀ (s : ℚ → Option ℚ) (v : ℚ), (minimizeSagaS s halfArgs).toOption.map (fun r => (r.success, r.x 0)) = some (true, v) →
      ∃ r, minimizeSagaS s halfArgs = .ok r ∧ r.success = true ∧ r.x 0 = v := by
    intro s v h
    cases hr : minimizeSagaS s halfArgs with
    | error e => rw [hr] at h; simp [Except.toOption] at h
    | ok r =>
      rw [hr] at h
      simp only [Except.toOption, Option.map_some, Option.some.injEq, Prod.mk.injEq] at h
      exact ⟨r, rfl, h.1, h.2⟩
  exact ⟨get _ _ (by decide +kernel), get _ _ (by decide +kernel)⟩

/-- **C120 (refuted, SVRG).** The same problem with `minimize_svrg`. -/
theorem C120_svrg_refuted : (∃ r, minimizeSvrgS some halfArgs = .ok r ∧ r.success = true ∧ r.x 0 = 1 / 2) ∧
    ∃ r, minimizeSvrgS (fun v => some (truncK v)) halfArgs = .ok r ∧ r.success = true ∧ r.x 0 = 0 := by
  have get : ∀ (s : ℚ → Option ℚ) (v : ℚ), (minimizeSvrgS s halfArgs).toOption.map (fun r => (r.success, r.x 0)) = some (true, v) →
      ∃ r, minimizeSvrgS s halfArgs = .ok r ∧ r.success = true ∧ r.x 0 = v := by
    intro s v h
    cases hr : minimizeSvrgS s halfArgs with
    | error e => rw [hr] at h; simp [Except.toOption] at h
    | ok r =>
      rw [hr] at h
      simp only [Except.toOption, Option.map_some, Option.some.injEq, Prod.mk.injEq] at h
      exact ⟨r, rfl, h.1, h.2⟩
  exact ⟨get _ _ (by decide +kernel), get _ _ (by decide +kernel)⟩

theorem halfArgs_good : halfArgs.Good := by
  refine ⟨⟨?_, ?_, ?_⟩, ?_, goodBlocks_eye 1⟩
  · intro i; fin_cases i; simp [halfArgs]
  · intro i; fin_cases i <;> simp [halfArgs]
  · intro i; change Fin 1 at i; fin_cases i; simp [halfArgs]
  · intro i j k h1 h2 h3 h4 h
    change Fin 1 at j; change Fin 1 at k
    fin_cases j; fin_cases k; rfl

/-- The hypotheses of `C120_saga_zero_start` hold for this problem with the step 3/4 (`M = 1/2`, `R = 1`). -/
example : ∃ r, minimizeSagaS (fun v => some (truncK v)) { halfArgs with stepSize := some (3 / 4) } = .ok r ∧ r.success = true ∧ r.nit = 0 ∧
    r.x = fun _ => 0 := by
  have hg : ({ halfArgs with stepSize := some (3 / 4) } : VRArgs ℚ 1 1).Good := ⟨halfArgs_good.csr, halfArgs_good.nodup, halfArgs_good.blocks⟩
  refine C120_saga_zero_start _ hg (step := 3 / 4) (M := 1 / 2) (R := 1) rfl (by norm_num) (by funext i; fin_cases i; rfl) rfl ?_ (by norm_num) ?_
    (by norm_num) ?_ (by norm_num [halfArgs]) (by norm_num [halfArgs]) ?_ fun v hv => by rw [truncK_small hv]
  · intro i; fin_cases i; decide +kernel
  · intro i c
    fin_cases i; fin_cases c
    decide +kernel
  · intro i hi; simp only [halfArgs, List.mem_singleton] at hi; omega
  · intro S hS
    have h : (({ halfArgs with stepSize := some (3 / 4) } : VRArgs ℚ 1 1).support.map fun S => S.bs) = some [0] := by decide +kernel
    rw [hS] at h
    simp only [Option.map_some, Option.some.injEq] at h
    rw [h]; simp

/-- The same problem with the target 3. -/
def threeArgs : VRArgs ℚ 1 1 := { halfArgs with b := ![3] }

/-- The hypothesis of `C120_exact_partial` holds for the integers and the target 3: both types give the minimiser 3. -/
example : ∃ r, minimizeSagaS (onlyExact (Set.range ((↑) : ℤ → ℚ))) threeArgs = .ok r ∧ r.x 0 = 3 := by
  have hre : Refines (fun v : ℚ => if (⌊v⌋ : ℚ) = v then some v else none) (onlyExact (Set.range ((↑) : ℤ → ℚ))) := by
    intro v w h
    simp only at h
    split at h
    · rename_i hv
      unfold onlyExact
      rw [if_pos ⟨_, hv⟩]; exact h
    · simp at h
  have h : (minimizeSagaS (fun v : ℚ => if (⌊v⌋ : ℚ) = v then some v else none) threeArgs).toOption.map (fun r => r.x 0) = some 3 := by
    decide +kernel
  cases hr : minimizeSagaS (fun v : ℚ => if (⌊v⌋ : ℚ) = v then some v else none) threeArgs with
  | error e => rw [hr] at h; simp [Except.toOption] at h
  | ok r =>
    rw [hr] at h
    simp only [Except.toOption, Option.map_some, Option.some.injEq] at h
    exact ⟨r, minimizeSagaS_refines hre hr, h⟩

/-! ### The primal-dual method -/

section PrimalDual

variable {E F : Type} [NormedAddCommGroup E] [InnerProductSpace ℝ E] [NormedAddCommGroup F] [InnerProductSpace ℝ F]

theorem pdLoopS_refines {s t : E → Option E} (hst : Refines s t) {P : PDArgs E F} : ∀ (rem it : ℕ) (st : PDState E F) r,
    pdLoopS s P rem it st = some r → pdLoopS t P rem it st = some r := by
  have hn : ∀ (o : Option (PDState E F)) v, (o.bind fun s' => (s s'.x).map fun x => { s' with x := x }) = some v →
      (o.bind fun s' => (t s'.x).map fun x => { s' with x := x }) = some v := by
    intro o v h
    obtain ⟨a, h1, h2⟩ := Option.bind_eq_some_iff.mp h
    obtain ⟨b, h3, h4⟩ := Option.map_eq_some_iff.mp h2
    exact Option.bind_eq_some_iff.mpr ⟨a, h1, Option.map_eq_some_iff.mpr ⟨b, hst _ _ h3, h4⟩⟩
  intro rem
  induction rem with
  | zero =>
    intro it st r h
    unfold pdLoopS at h ⊢
    cases hc : (pdNext P it st).bind fun s' => (s s'.x).map fun x => { s' with x := x } with
    | none => rw [hc] at h; simp at h
    | some v => rw [hc] at h; rw [hn _ _ hc]; exact h
  | succ rem ih =>
    intro it st r h
    unfold pdLoopS at h ⊢
    cases hc : (pdNext P it st).bind fun s' => (s s'.x).map fun x => { s' with x := x } with
    | none => rw [hc] at h; simp at h
    | some v =>
      rw [hc] at h; rw [hn _ _ hc]
      simp only at h ⊢
      split at h
      · rename_i hd; rw [if_pos hd]; exact h
      · rename_i hd; rw [if_neg hd]
        split at h
        · rename_i hb; rw [if_pos hb]; exact h
        · rename_i hb; rw [if_neg hb]; exact ih _ _ _ h

theorem pdLoopS_some {P : PDArgs E F} : ∀ (rem it : ℕ) (st : PDState E F), pdLoopS some P rem it st = pdLoop P rem it st := by
  have hn : ∀ (o : Option (PDState E F)), (o.bind fun s' => (some s'.x).map fun x => { s' with x := x }) = o := by
    intro o; cases o <;> rfl
  intro rem
  induction rem with
  | zero => intro it st; unfold pdLoopS pdLoop; rw [hn]; rfl
  | succ rem ih => intro it st; unfold pdLoopS pdLoop; rw [hn]; simp only [ih]; rfl

theorem minimizePrimalDualS_some (P : PDArgs E F) : minimizePrimalDualS some P = minimizePrimalDual P := by
  unfold minimizePrimalDualS minimizePrimalDual
  simp only [pdLoopS_some]
  rfl

theorem minimizePrimalDualS_refines {s t : E → Option E} (hst : Refines s t) {P : PDArgs E F} {r : Except PyErr (PDResult E F)}
    (h : minimizePrimalDualS s P = some r) : minimizePrimalDualS t P = some r := by
  unfold minimizePrimalDualS at h ⊢
  split at h
  · rename_i hc; rw [if_pos hc]; exact h
  · rename_i hc; rw [if_neg hc]
    cases hm : P.maxIter with
    | zero => rw [hm] at h; exact h
    | succ m =>
      rw [hm] at h
      simp only at h ⊢
      obtain ⟨a, h1, h2⟩ := Option.map_eq_some_iff.mp h
      exact Option.map_eq_some_iff.mpr ⟨a, pdLoopS_refines hst _ _ _ _ h1, h2⟩

/-- **C120 (partial, primal-dual).** The same for `minimize_primal_dual`: a run whose iterates are all represented exactly by the type of
the starting array is the same for both types.  Missing: other runs, for which the claim is false (`C120_primal_dual_refuted`). -/
theorem C120_primal_dual_exact_partial (P : PDArgs E F) {I : Set E} {conv : E → E} (hconv : ∀ v ∈ I, conv v = v)
    {r : Except PyErr (PDResult E F)} (h : minimizePrimalDualS (onlyExact I) P = some r) :
    minimizePrimalDual P = some r ∧ minimizePrimalDualS (fun v => some (conv v)) P = some r := by
  refine ⟨?_, minimizePrimalDualS_refines (onlyExact_refines hconv) h⟩
  rw [← minimizePrimalDualS_some]
  exact minimizePrimalDualS_refines (onlyExact_refines (conv := id) fun _ _ => rfl) h

/-- `f(x) = (x - 1/2)²/2` from `x0 = 0` with `step_size=1`, no proximal terms, `L=None` and no line search. -/
noncomputable def halfPd (m : ℕ) : PDArgs ℝ ℝ where
  fg x := ((x - 1 / 2) ^ 2 / 2, x - 1 / 2)
  x0 := 0
  prox1 := none
  prox2 := none
  matvec := id
  rmatvec := id
  tol := 1 / 1000
  maxIter := m
  callback := none
  stepSize := 1
  stepSize2 := none
  lineSearch := false
  lsIter := 10000

theorem halfPd_next (m it : ℕ) (st : PDState ℝ ℝ) (hy : st.y = 0) (ht : st.tau = 1 / 2) (hs : st.sigma = 1) :
    ∃ s, pdNext (halfPd m) it st = some s ∧ s.x = st.x - st.grad ∧ s.y = 0 ∧ s.grad = st.x - st.grad - 1 / 2 ∧ s.tau = 1 / 2 ∧ s.sigma = 1 ∧
      s.normIncr = if it % 100 = 0 then some |st.grad| else st.normIncr := by
  have hyn : prox2Conj (halfPd m).p2 (st.y + st.tau • (halfPd m).matvec st.x) st.tau = 0 := by
    rw [hy, ht]
    show (0 : ℝ) + (1 / 2 : ℝ) • st.x - (1 / 2 : ℝ) • ((1 / 2 : ℝ)⁻¹ • ((0 : ℝ) + (1 / 2 : ℝ) • st.x)) = 0
    simp only [smul_eq_mul]; ring
  have hstep : pdStep (halfPd m) st = some { xNext := st.x - st.grad, yNext := 0, theta := st.theta, tau := st.tau, sigma := st.sigma } := by
    unfold pdStep
    rw [hyn, if_neg (by simp [halfPd])]
    have e : (halfPd m).p1 (st.x - st.sigma • ((halfPd m).rmatvec ((2 : ℝ) • (0 : ℝ) - st.y) + st.grad)) st.sigma = st.x - st.grad := by
      show st.x - st.sigma • ((2 : ℝ) • (0 : ℝ) - st.y + st.grad) = _
      rw [hs, hy]; simp
    simp only [e]
  unfold pdNext
  rw [hstep, Option.map_some]
  refine ⟨_, rfl, rfl, rfl, rfl, ht, hs, ?_⟩
  simp only [hy, sub_zero, norm_zero, add_zero, Real.norm_eq_abs]
  rw [show st.x - st.grad - st.x = -st.grad by ring, abs_neg]

/-- **C120 (refuted, primal-dual).** Stored as floats the iterate is the minimiser 1/2 from the first iteration on; stored as integers,
the call returns 0 for every `max_iter`, where the gradient is -1/2. -/
theorem C120_primal_dual_refuted (m : ℕ) :
    (∃ r, minimizePrimalDualS some (halfPd (m + 1)) = some (.ok r) ∧ r.x = 1 / 2) ∧
    ∃ r, minimizePrimalDualS (fun v => some (truncK v)) (halfPd (m + 1)) = some (.ok r) ∧ r.x = 0 := by
  have run : ∀ (conv : ℝ → ℝ) (I : ℝ → ℝ → Prop) (xf : ℝ), (∀ x g, I x g → conv (x - g) = xf) → (∀ x g, I x g → I xf (x - g - 1 / 2)) →
      ∀ rem it st, I st.x st.grad → st.y = 0 → st.tau = 1 / 2 → st.sigma = 1 →
        ∃ r, pdLoopS (fun v => some (conv v)) (halfPd (m + 1)) rem it st = some r ∧ r.1.x = xf := by
    intro conv I xf h1 h2 rem
    induction rem with
    | zero =>
      intro it st hI hy ht hs
      obtain ⟨s, e0, e1, e2, e3, e4, e5, -⟩ := halfPd_next (m + 1) it st hy ht hs
      unfold pdLoopS
      rw [e0]
      simp only [Option.bind_some, Option.map_some]
      have hx : conv s.x = xf := by rw [e1]; exact h1 _ _ hI
      split
      · exact ⟨_, rfl, hx⟩
      · split
        · exact ⟨_, rfl, hx⟩
        · exact ⟨_, rfl, hx⟩
    | succ rem ih =>
      intro it st hI hy ht hs
      obtain ⟨s, e0, e1, e2, e3, e4, e5, -⟩ := halfPd_next (m + 1) it st hy ht hs
      unfold pdLoopS
      rw [e0]
      simp only [Option.bind_some, Option.map_some]
      have hx : conv s.x = xf := by rw [e1]; exact h1 _ _ hI
      split
      · exact ⟨_, rfl, hx⟩
      · split
        · exact ⟨_, rfl, hx⟩
        · refine ih _ _ ?_ e2 e4 e5
          simp only [hx, e3]
          exact h2 _ _ hI
  have fin : ∀ (conv : ℝ → ℝ) (xf : ℝ), (∃ r, pdLoopS (fun v => some (conv v)) (halfPd (m + 1)) m 0 (pdInit (halfPd (m + 1))) = some r ∧ r.1.x = xf) →
      ∃ r, minimizePrimalDualS (fun v => some (conv v)) (halfPd (m + 1)) = some (.ok r) ∧ r.x = xf := by
    rintro conv xf ⟨r, h1, h2⟩
    unfold minimizePrimalDualS
    rw [if_neg (by norm_num [halfPd]), show (halfPd (m + 1)).maxIter = m + 1 from rfl]
    simp only [h1, Option.map_some]
    exact ⟨_, rfl, h2⟩
  have ht0 : (pdInit (halfPd (m + 1))).tau = 1 / 2 := by
    show (1 / 2 : ℝ) * 1 = _
    norm_num
  refine ⟨fin id _ (run id (fun x g => g = x - 1 / 2) (1 / 2) ?_ ?_ m 0 _ rfl rfl ht0 rfl), fin truncK _ (run truncK (fun x g => x = 0 ∧ (g = 0 ∨ g = -1 / 2)) 0 ?_ ?_ m 0 _ ⟨rfl, Or.inr ?_⟩ rfl ht0 rfl)⟩
  · intro x g h; rw [h]; simp
  · intro x g h; rw [h]; ring
  · rintro x g ⟨rfl, rfl | rfl⟩ <;> exact truncK_small (by norm_num [abs_of_pos])
  · rintro x g ⟨rfl, rfl | rfl⟩
    · exact ⟨rfl, Or.inr (by norm_num)⟩
    · exact ⟨rfl, Or.inl (by norm_num)⟩
  · show (0 : ℝ) - 1 / 2 = -1 / 2
    norm_num

end PrimalDual

end Copt
