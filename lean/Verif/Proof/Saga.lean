import Verif.Proof.Blocks

/-! # One inner step of the variance-reduced methods in closed form -/

set_option linter.unusedSectionVars false

namespace Copt

open Spec

variable {K : Type} [Field K] {n p : ℕ}

/-- Reading a total array. -/
theorem rd_fin {q : ℕ} {α : Type} (a : Fin q → α) (i : Fin q) : rd a i.val = some (a i) := rd_lt a i.isLt

/-- The weight `n / (number of samples touching the block of c)`. -/
noncomputable def blockWeight (A : CsrMat K n p) {B : BlockMat} (hB : GoodBlocks B p) (c : Fin p) : K := (n : K) / (touchCount A B.ptr (hB.of c) : K)

/-- Sample `i` touches the block of feature `c`. -/
abbrev Near (A : CsrMat K n p) {B : BlockMat} (hB : GoodBlocks B p) (i : Fin n) (c : Fin p) : Prop :=
  Touches A.indptr A.indices B.ptr i (hB.of c)

theorem near_of_stores {A : CsrMat K n p} {B : BlockMat} (hB : GoodBlocks B p) {i : Fin n} {c : Fin p} (h : StoresAt A.indptr A.indices i c) :
    Near A hB i c := ⟨c, h, hB.of_spec c⟩

/-- The part of an inner step that SAGA and SVRG share. -/
theorem coefStep_spec {A : CsrMat K n p} {B : BlockMat} {S : Support n B.nb} (hB : GoodBlocks B p)
    (hS : SupportOk A hB S) (i : Fin n) (avg tmp : Fin p → K) (alpha step : K) {hs : List ℕ} (hrow : S.row i = some hs) (x : Fin p → K) :
    ∃ x', forBlocks B (stepBody (supWeights n S.bs) avg tmp alpha step) hs x = some x' ∧
      (∀ c, Near A hB i c → x' c = x c - step * (tmp c + blockWeight A hB c * (avg c + alpha * x c))) ∧
      (∀ c, ¬Near A hB i c → x' c = x c) := by
  obtain ⟨hs', hr, hnd, hlt, hmem⟩ := hS.row i
  rw [hr] at hrow
  obtain rfl := Option.some.inj hrow
  obtain ⟨x', he, hx⟩ := forBlocks_spec hB (F := fun h j v => v - step * (getD0 tmp j +
      getD0 (supWeights n S.bs : Fin (supWidth S.bs) → K) h * (getD0 avg j + alpha * v)))
    (body := stepBody (supWeights n S.bs) avg tmp alpha step) hs' hnd hlt (by
      intro h hh j hj hof x
      have hw := (hS.weight ((hmem ⟨h, hlt h hh⟩).mp hh)).2
      have hw' : rd (supWeights n S.bs : Fin (supWidth S.bs) → K) h =
          some (getD0 (supWeights n S.bs : Fin (supWidth S.bs) → K) h) := by
        refine rd_eq_getD0 _ ?_
        by_contra hc
        rw [show rd (supWeights n S.bs : Fin (supWidth S.bs) → K) h = none from dif_neg hc] at hw
        simp at hw
      unfold stepBody
      rw [hw', rd_eq_getD0 avg hj, rd_eq_getD0 tmp hj, rd_lt x hj]
      simp only [Option.bind_eq_bind, Option.bind_some, wr_lt x hj]) x
  refine ⟨x', he, fun c hc => ?_, fun c hc => ?_⟩
  · rw [hx c, if_pos ((hmem _).mpr hc), getD0_lt tmp c.isLt, getD0_lt avg c.isLt]
    have hw := (hS.weight hc).2
    have hlt' : (hB.of c).val < supWidth S.bs := by
      by_contra hn
      rw [show rd (supWeights n S.bs : Fin (supWidth S.bs) → K) (hB.of c).val = none from dif_neg hn] at hw
      simp at hw
    rw [rd_eq_getD0 _ hlt'] at hw
    rw [Option.some.inj hw]
    rfl
  · rw [hx c, if_neg (fun h => hc ((hmem _).mp h))]

/-- Well-formed arguments: canonical CSR data and consecutive blocks. -/
structure VRArgs.Good (P : VRArgs K n p) : Prop where
  csr : GoodCsr p P.A.indptr P.A.indices
  nodup : NoDuplicates P.A.indptr P.A.indices
  blocks : GoodBlocks P.blocks p

theorem VRArgs.Good.support {P : VRArgs K n p} (hP : P.Good) : ∃ S, P.support = some S ∧ SupportOk P.A hP.blocks S := supportOk hP.csr hP.blocks

/-- The derivative of sample `i` at `x`. -/
def VRArgs.gi (P : VRArgs K n p) (x : Fin p → K) (i : Fin n) : K := P.deriv (∑ c : Fin p, P.A.ent i c * x c) (P.b i)

open Classical in
/-- The vector given to the proximal routine by a SAGA step. -/
noncomputable def sagaMid (P : VRArgs K n p) (hP : P.Good) (step : K) (st : SagaState K n p) (i : Fin n) : Fin p → K := fun c =>
  if Near P.A hP.blocks i c then
    st.x c - step * ((P.gi st.x i - st.mem i) * P.A.ent i c + blockWeight P.A hP.blocks c * (st.avg c + P.alpha * st.x c))
  else st.x c

theorem sagaStep_spec (P : VRArgs K n p) (hP : P.Good) {S : Support n P.blocks.nb} (hS : SupportOk P.A hP.blocks S) (step : K)
    (st : SagaState K n p) (htmp : st.tmp = fun _ => 0) (i : Fin n) : ∃ hs, S.row i = some hs ∧
      sagaStep P S step st i = (P.prox _ (supWeights n S.bs) step hs (sagaMid P hP step st i)).bind fun u => some
        { x := u, mem := Function.update st.mem i (P.gi st.x i),
          avg := fun c => st.avg c + (P.gi st.x i - st.mem i) * P.A.ent i c / (n : K), tmp := fun _ => 0 } := by
  classical
  obtain ⟨hs, hr, -, -, -⟩ := hS.row i
  obtain ⟨tmp, ht, htv⟩ := rowScatter_spec hP.csr hP.nodup i (P.gi st.x i - st.mem i) st.tmp
  obtain ⟨x', hx, hx1, hx2⟩ := coefStep_spec hP.blocks hS i st.avg tmp P.alpha step hr st.x
  obtain ⟨s', hm, hm1, hm2⟩ := rowMemory_spec hP.csr i n (P.gi st.x i - st.mem i) (st.avg, tmp)
  have htv' : ∀ c : Fin p, tmp c = (P.gi st.x i - st.mem i) * P.A.ent i c := by
    intro c
    rw [htv c]
    by_cases h : StoresAt P.A.indptr P.A.indices i c
    · rw [if_pos h]
    · rw [if_neg h, ent_eq_zero h, htmp, mul_zero]
  have hmid : x' = sagaMid P hP step st i := by
    funext c
    unfold sagaMid
    by_cases h : Near P.A hP.blocks i c
    · rw [if_pos h, hx1 c h, htv' c]
    · rw [if_neg h, hx2 c h]
  have hs1 : s'.1 = fun c => st.avg c + (P.gi st.x i - st.mem i) * P.A.ent i c / (n : K) := funext hm1
  have hs2 : s'.2 = fun _ => 0 := by
    funext c
    rw [hm2 c]
    by_cases h : StoresAt P.A.indptr P.A.indices i c
    · rw [if_pos h]
    · rw [if_neg h]
      show tmp c = 0
      rw [htv' c, ent_eq_zero h, mul_zero]
  refine ⟨hs, hr, ?_⟩
  unfold sagaStep
  rw [CsrMat.row_eq hP.csr, rd_fin P.b, rd_fin st.mem, hr]
  simp only [Option.bind_eq_bind, Option.bind_some]
  rw [rowDot_spec hP.csr]
  simp only [Option.bind_some]
  unfold VRArgs.gi at ht hm
  rw [ht]
  simp only [Option.bind_some]
  rw [hx]
  simp only [Option.bind_some]
  rw [hm, hmid]
  simp only [Option.bind_some, wr_lt st.mem i.isLt, Fin.eta, Option.pure_def, hs1, hs2]
  rfl

open Classical in
theorem svrgStep_spec (P : VRArgs K n p) (hP : P.Good) {S : Support n P.blocks.nb} (hS : SupportOk P.A hP.blocks S) (step : K)
    (snap avg : Fin p → K) (st : SvrgState K p) (i : Fin n) : ∃ hs, S.row i = some hs ∧ ∃ tmp mid : Fin p → K,
      svrgStep P S step snap avg st i = (P.prox _ (supWeights n S.bs) step hs mid).bind (fun u => some { x := u, tmp := tmp }) ∧
      (∀ c : Fin p, tmp c = if StoresAt P.A.indptr P.A.indices i c then (P.gi st.x i - P.gi snap i) * P.A.ent i c else st.tmp c) ∧
      (∀ c, Near P.A hP.blocks i c → mid c = st.x c - step * (tmp c + blockWeight P.A hP.blocks c * (avg c + P.alpha * st.x c))) ∧
      (∀ c, ¬Near P.A hP.blocks i c → mid c = st.x c) := by
  obtain ⟨hs, hr, -, -, -⟩ := hS.row i
  obtain ⟨tmp, ht, htv⟩ := rowScatter_spec hP.csr hP.nodup i (P.gi st.x i - P.gi snap i) st.tmp
  obtain ⟨x', hx, hx1, hx2⟩ := coefStep_spec hP.blocks hS i avg tmp P.alpha step hr st.x
  refine ⟨hs, hr, tmp, x', ?_, htv, hx1, hx2⟩
  unfold svrgStep
  rw [CsrMat.row_eq hP.csr, rd_fin P.b, hr]
  simp only [Option.bind_eq_bind, Option.bind_some]
  rw [rowDot_spec hP.csr, rowDot_spec hP.csr]
  simp only [Option.bind_some]
  unfold VRArgs.gi at ht
  rw [ht]
  simp only [Option.bind_some]
  rw [hx]
  simp only [Option.bind_some, Option.pure_def]

theorem fullGrad_row {A : CsrMat K n p} (hG : GoodCsr p A.indptr A.indices) (g : K) : ∀ (L : List (ℕ × K)), (∀ e ∈ L, e.1 < p) → ∀ grad : Fin p → K,
    ∃ grad', (L.foldlM (fun (grad : Fin p → K) e => do
      let v ← rd grad e.1
      wr grad e.1 (v + g * e.2 / (n : K))) grad) = some grad' ∧
      ∀ c : Fin p, grad' c = grad c + (L.map fun e => if e.1 = c.val then g * e.2 / (n : K) else 0).sum := by
  intro L
  induction L with
  | nil => intro _ grad; exact ⟨grad, rfl, by simp⟩
  | cons e L ih =>
    intro h grad
    have he := h e (by simp)
    obtain ⟨g', h1, h2⟩ := ih (fun e' he' => h e' (by simp [he'])) (Function.update grad ⟨e.1, he⟩ (grad ⟨e.1, he⟩ + g * e.2 / (n : K)))
    refine ⟨g', ?_, fun c => ?_⟩
    · rw [List.foldlM_cons, rd_lt grad he]
      simp only [Option.bind_eq_bind, Option.bind_some, wr_lt grad he]
      exact h1
    · rw [h2 c, List.map_cons, List.sum_cons]
      by_cases hc : e.1 = c.val
      · rw [if_pos hc, show c = ⟨e.1, he⟩ from Fin.ext hc.symm, Function.update_self]; ring
      · rw [if_neg hc, zero_add, Function.update_of_ne (fun hh => hc (by rw [hh]))]

theorem fullGrad_spec (P : VRArgs K n p) (hG : GoodCsr p P.A.indptr P.A.indices) (x : Fin p → K) :
    fullGrad P x = some fun c : Fin p => (∑ i, P.gi x i * P.A.ent i c) / (n : K) := by
  have key : ∀ (l : List (Fin n)) (grad : Fin p → K), (l.map Fin.val).foldlM (fun grad i => do
      let row ← P.A.row i
      let dot ← rowDot x row
      let bi ← rd P.b i
      row.foldlM (fun grad e => do
        let g ← rd grad e.1
        wr grad e.1 (g + P.deriv dot bi * e.2 / (n : K))) grad) grad =
      some fun c : Fin p => grad c + (l.map fun i => P.gi x i * P.A.ent i c / (n : K)).sum := by
    intro l
    induction l with
    | nil => intro grad; simp
    | cons i l ih =>
      intro grad
      obtain ⟨g', h1, h2⟩ := fullGrad_row hG (P.gi x i) (P.A.rowList i) (rowList_col_lt hG i) grad
      rw [List.map_cons, List.foldlM_cons, CsrMat.row_eq hG, rd_fin P.b]
      simp only [Option.bind_eq_bind, Option.bind_some, rowDot_spec hG]
      unfold VRArgs.gi at h1
      simp only [Option.bind_eq_bind] at h1 ih
      rw [h1]
      simp only [Option.bind_some]
      rw [ih g']
      congr 1
      funext c
      rw [h2 c, List.map_cons, List.sum_cons, add_assoc]
      congr 2
      rw [← rowList_ent hG i c, mul_div_right_comm, ← List.sum_map_mul_left]
      congr 1
      refine List.map_congr_left fun e _ => ?_
      split
      · ring
      · ring
  unfold fullGrad
  have := key (List.finRange n) fun _ => 0
  rw [List.map_coe_finRange_eq_range] at this
  rw [this]
  congr 1
  funext c
  rw [zero_add, Finset.sum_div, ← List.sum_ofFn, List.ofFn_eq_map]

end Copt
