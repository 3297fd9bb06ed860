import Verif.Props.Vrtos

/-! # `minimize_vrtos`: the caller's array, the stopping test, and reads of the reweighting arrays -/

set_option linter.unusedSectionVars false

namespace Copt

open Spec

variable {K : Type} [Field K] {n p : ℕ}

/-! ### C63 -/

theorem lt_supWidth_iff {bs : List ℕ} {h : ℕ} : h < supWidth bs ↔ ∃ h' ∈ bs, h ≤ h' := by
  induction bs with
  | nil => simp [supWidth]
  | cons a bs ih =>
    have : supWidth (a :: bs) = max (a + 1) (supWidth bs) := rfl
    rw [this, lt_max_iff, ih]
    simp only [List.mem_cons, exists_eq_or_imp, Nat.lt_succ_iff]

theorem SupportOk.lt_iff {A : CsrMat K n p} {B : BlockMat} {hB : GoodBlocks B p} {S : Support n B.nb} (hS : SupportOk A hB S) (h : ℕ) :
    h < supWidth S.bs ↔ ∃ (i : Fin n) (h' : Fin B.nb), Touches A.indptr A.indices B.ptr i h' ∧ h ≤ h'.val := by
  classical
  rw [lt_supWidth_iff]
  constructor
  · rintro ⟨h', hm, hle⟩
    have h1 := hS.count ⟨h', hS.mem h' hm⟩
    have h2 : 0 < S.bs.count h' := List.count_pos_iff.mpr hm
    rw [h1] at h2
    unfold touchCount at h2
    obtain ⟨i, hi⟩ := Finset.card_pos.mp h2
    exact ⟨i, ⟨h', hS.mem h' hm⟩, (Finset.mem_filter.mp hi).2, hle⟩
  · rintro ⟨i, h', ht, hle⟩
    refine ⟨h'.val, ?_, hle⟩
    have h1 := (hS.weight (K := K) ht).1
    rw [← hS.count h'] at h1
    exact List.count_pos_iff.mp h1

/-- The proximal routine does not read outside its arrays. -/
def TotalProx [LinearOrder K] (nb : ℕ) (prox : SparseProx K p) : Prop :=
  ∀ (m : ℕ) (d : Fin m → K) (step : K) (hs : List ℕ) (v : Fin p → K), (∀ h, 0 ≤ d h) → 0 ≤ step → hs.Nodup → (∀ h ∈ hs, h < nb ∧ h < m) →
    ∃ u, prox m d step hs v = some u

theorem vrtos_half_some {B : BlockMat} (P : VrtosArgs K n p) (hB : GoodBlocks B p) {S : Support n B.nb} (hS : SupportOk P.A hB S) (i : Fin n)
    {hs : List ℕ} (hr : S.row i = some hs) (tmp z avg y x : Fin p → K) :
    ∃ v, forBlocks B (vrtosBody (supWeights n S.bs) avg tmp z y P.alpha P.stepSize) hs x = some v := by
  obtain ⟨hs', hr', hnd, hlt, hmem⟩ := hS.row i
  rw [hr] at hr'
  obtain rfl := Option.some.inj hr'
  obtain ⟨v, hv, -⟩ := forBlocks_spec hB (F := fun h j _ => 2 * getD0 z j - getD0 y j - P.stepSize * (1 / 2) * (getD0 tmp j +
      getD0 (supWeights n S.bs : Fin (supWidth S.bs) → K) h * (getD0 avg j + P.alpha * getD0 z j)))
    (body := vrtosBody (supWeights n S.bs) avg tmp z y P.alpha P.stepSize) hs hnd hlt (by
      intro h hh j hj hof x
      have hw := (hS.weight (K := K) ((hmem ⟨h, hlt h hh⟩).mp hh)).2
      have hw' : rd (supWeights n S.bs : Fin (supWidth S.bs) → K) h = some (getD0 (supWeights n S.bs : Fin (supWidth S.bs) → K) h) := by
        refine rd_eq_getD0 _ ?_
        by_contra hc
        rw [show rd (supWeights n S.bs : Fin (supWidth S.bs) → K) h = none from dif_neg hc] at hw
        simp at hw
      unfold vrtosBody
      rw [hw', rd_eq_getD0 avg hj, rd_eq_getD0 tmp hj, rd_eq_getD0 z hj, rd_eq_getD0 y hj]
      simp only [Option.bind_eq_bind, Option.bind_some, wr_lt x hj]) x
  exact ⟨v, hv⟩

theorem vrtosY_some {B : BlockMat} (hB : GoodBlocks B p) {hs : List ℕ} (hnd : hs.Nodup) (hlt : ∀ h ∈ hs, h < B.nb) (x z y : Fin p → K) :
    ∃ v, forBlocks B (vrtosY x z) hs y = some v := by
  obtain ⟨v, hv, -⟩ := forBlocks_spec hB (F := fun _ j yj => yj + (getD0 x j - getD0 z j)) (body := vrtosY x z) hs hnd hlt (by
      intro h hh j hj hof y
      unfold vrtosY
      rw [rd_lt y hj, rd_eq_getD0 x hj, rd_eq_getD0 z hj]
      simp only [Option.bind_eq_bind, Option.bind_some, wr_lt y hj]) y
  exact ⟨v, hv⟩

theorem vrtosZ_some {B : BlockMat} (P : VrtosArgs K n p) (hP : P.Good) (hB : GoodBlocks B p) {S1 : Support n P.blocks1.nb} {S2 : Support n P.blocks2.nb}
    {hs : List ℕ} (hnd : hs.Nodup) (hlt : ∀ h ∈ hs, h < B.nb)
    (hin : ∀ c : Fin p, (hB.of c).val ∈ hs → (hP.blocks1.of c).val < supWidth S1.bs ∧ (hP.blocks2.of c).val < supWidth S2.bs)
    (y1 y2 z : Fin p → K) : ∃ v, forBlocks B (vrtosZ (supWeights n S1.bs) (supWeights n S2.bs) P.rb1 P.rb2 y1 y2) hs z = some v := by
  classical
  obtain ⟨v, hv, -⟩ := forBlocks_spec hB (F := fun _ j _ => if hj : j < p then
      (1 / getD0 (supWeights n S1.bs : Fin (supWidth S1.bs) → K) (hP.blocks1.of ⟨j, hj⟩).val * y1 ⟨j, hj⟩ +
          1 / getD0 (supWeights n S2.bs : Fin (supWidth S2.bs) → K) (hP.blocks2.of ⟨j, hj⟩).val * y2 ⟨j, hj⟩) /
        (1 / getD0 (supWeights n S1.bs : Fin (supWidth S1.bs) → K) (hP.blocks1.of ⟨j, hj⟩).val +
          1 / getD0 (supWeights n S2.bs : Fin (supWidth S2.bs) → K) (hP.blocks2.of ⟨j, hj⟩).val) else 0)
    (body := vrtosZ (supWeights n S1.bs) (supWeights n S2.bs) P.rb1 P.rb2 y1 y2) hs hnd hlt (by
      intro h hh j hj hof z
      have hb := hin ⟨j, hj⟩ (by rw [hof]; exact hh)
      unfold vrtosZ VrtosArgs.rb1 VrtosArgs.rb2
      have e1 := rblocks_rd hP.blocks1 ⟨j, hj⟩
      have e2 := rblocks_rd hP.blocks2 ⟨j, hj⟩
      simp only at e1 e2
      rw [e1, e2]
      simp only [Option.bind_eq_bind, Option.bind_some]
      rw [rd_eq_getD0 _ hb.1, rd_eq_getD0 _ hb.2, rd_lt y1 hj, rd_lt y2 hj]
      simp only [Option.bind_some, wr_lt z hj, dif_pos hj]) z
  exact ⟨v, hv⟩

/-- Every feature updated through one structure lies, in both structures, in a block whose index does not exceed that of some touched block: the
reweighting arrays, whose length is one more than the largest touched index, cover it. -/
def Covered (P : VrtosArgs K n p) (i : Fin n) : Prop :=
  ∀ (c : Fin p) (h1 : Fin P.blocks1.nb) (h2 : Fin P.blocks2.nb), InBlock P.blocks1.ptr h1 c → InBlock P.blocks2.ptr h2 c →
    (Touches P.A.indptr P.A.indices P.blocks1.ptr i h1 ∨ Touches P.A.indptr P.A.indices P.blocks2.ptr i h2) →
    (∃ i' h', Touches P.A.indptr P.A.indices P.blocks1.ptr i' h' ∧ h1 ≤ h') ∧ ∃ i' h', Touches P.A.indptr P.A.indices P.blocks2.ptr i' h' ∧ h2 ≤ h'

theorem covered_iff (P : VrtosArgs K n p) (hP : P.Good) {S1 : Support n P.blocks1.nb} {S2 : Support n P.blocks2.nb}
    (hS1 : SupportOk P.A hP.blocks1 S1) (hS2 : SupportOk P.A hP.blocks2 S2) (i : Fin n) : Covered P i ↔
    ∀ c, Near P.A hP.blocks1 i c ∨ Near P.A hP.blocks2 i c → (hP.blocks1.of c).val < supWidth S1.bs ∧ (hP.blocks2.of c).val < supWidth S2.bs := by
  constructor
  · intro h c hc
    have := h c _ _ (hP.blocks1.of_spec c) (hP.blocks2.of_spec c) hc
    exact ⟨(hS1.lt_iff _).mpr this.1, (hS2.lt_iff _).mpr this.2⟩
  · intro h c h1 h2 e1 e2 hc
    rw [← hP.blocks1.of_eq e1, ← hP.blocks2.of_eq e2] at hc ⊢
    have := h c hc
    exact ⟨(hS1.lt_iff _).mp this.1, (hS2.lt_iff _).mp this.2⟩

theorem vrtosStep_some [LinearOrder K] [IsStrictOrderedRing K] (P : VrtosArgs K n p) (hP : P.Good) {S1 : Support n P.blocks1.nb}
    {S2 : Support n P.blocks2.nb} (hS1 : SupportOk P.A hP.blocks1 S1) (hS2 : SupportOk P.A hP.blocks2 S2) (hstep : 0 ≤ P.stepSize)
    (hp1 : TotalProx P.blocks1.nb P.prox1) (hp2 : TotalProx P.blocks2.nb P.prox2) (i : Fin n) (hcov : Covered P i) (st : VrtosState K n p) :
    ∃ st', vrtosStep P S1 S2 st i = some st' := by
  obtain ⟨hs1, hr1, hnd1, hlt1, hm1⟩ := hS1.row i
  obtain ⟨hs2, hr2, hnd2, hlt2, hm2⟩ := hS2.row i
  obtain ⟨tmp, ht, -⟩ := rowScatter_spec hP.csr hP.nodup i (P.gi hP.size st.z i - st.mem i) st.tmp
  obtain ⟨s', hm, -, -⟩ := rowMemory_spec hP.csr i n (P.gi hP.size st.z i - st.mem i) (st.avg, tmp)
  have hin := (covered_iff P hP hS1 hS2 i).mp hcov
  obtain ⟨v1, a1⟩ := vrtos_half_some P hP.blocks1 hS1 i hr1 tmp st.z st.avg st.y1 st.x1
  obtain ⟨x1, a2⟩ := hp1 _ (supWeights n S1.bs) P.stepSize hs1 v1 (supWeights_nonneg n S1.bs) hstep hnd1
    (fun h hh => ⟨hlt1 h hh, listed_lt_width hS1 hlt1 hm1 h hh⟩)
  obtain ⟨y1, a3⟩ := vrtosY_some hP.blocks1 hnd1 hlt1 x1 st.z st.y1
  obtain ⟨v2, b1⟩ := vrtos_half_some P hP.blocks2 hS2 i hr2 tmp st.z st.avg st.y2 st.x2
  obtain ⟨x2, b2⟩ := hp2 _ (supWeights n S2.bs) P.stepSize hs2 v2 (supWeights_nonneg n S2.bs) hstep hnd2
    (fun h hh => ⟨hlt2 h hh, listed_lt_width hS2 hlt2 hm2 h hh⟩)
  obtain ⟨y2, b3⟩ := vrtosY_some hP.blocks2 hnd2 hlt2 x2 st.z st.y2
  obtain ⟨z1, c1⟩ := vrtosZ_some P hP hP.blocks1 (S1 := S1) (S2 := S2) hnd1 hlt1 (fun c hc => hin c (Or.inl ((hm1 _).mp hc))) y1 y2 st.z
  obtain ⟨z2, c2⟩ := vrtosZ_some P hP hP.blocks2 (S1 := S1) (S2 := S2) hnd2 hlt2 (fun c hc => hin c (Or.inr ((hm2 _).mp hc))) y1 y2 z1
  refine ⟨{ y1, y2, x1, x2, z := z2, mem := Function.update st.mem i (P.gi hP.size st.z i), avg := s'.1, tmp := s'.2 }, ?_⟩
  have hgi : P.deriv (∑ c : Fin p, P.A.ent i c * st.z c) (P.b ⟨i.val, by have := hP.size; omega⟩) = P.gi hP.size st.z i := rfl
  unfold vrtosStep
  refine Option.bind_eq_some_iff.mpr ⟨_, CsrMat.row_eq hP.csr i, ?_⟩
  refine Option.bind_eq_some_iff.mpr ⟨_, rowDot_spec hP.csr i _, ?_⟩
  refine Option.bind_eq_some_iff.mpr ⟨_, rd_lt P.b (by have := hP.size; omega : i.val < P.bSize), ?_⟩
  refine Option.bind_eq_some_iff.mpr ⟨_, rd_fin st.mem i, ?_⟩
  rw [hgi]
  refine Option.bind_eq_some_iff.mpr ⟨_, ht, ?_⟩
  refine Option.bind_eq_some_iff.mpr ⟨_, hr1, ?_⟩
  refine Option.bind_eq_some_iff.mpr ⟨_, hr2, ?_⟩
  refine Option.bind_eq_some_iff.mpr ⟨_, a1, ?_⟩
  refine Option.bind_eq_some_iff.mpr ⟨_, a2, ?_⟩
  refine Option.bind_eq_some_iff.mpr ⟨_, a3, ?_⟩
  refine Option.bind_eq_some_iff.mpr ⟨_, b1, ?_⟩
  refine Option.bind_eq_some_iff.mpr ⟨_, b2, ?_⟩
  refine Option.bind_eq_some_iff.mpr ⟨_, b3, ?_⟩
  refine Option.bind_eq_some_iff.mpr ⟨_, c1, ?_⟩
  refine Option.bind_eq_some_iff.mpr ⟨_, c2, ?_⟩
  refine Option.bind_eq_some_iff.mpr ⟨_, hm, ?_⟩
  refine Option.bind_eq_some_iff.mpr ⟨_, wr_lt st.mem i.isLt _, ?_⟩
  rfl

/-- **C63 (what holds).** Full claim: for every sparsity pattern and pair of block structures all reads of `d1`, `d2` are in bounds.  Proved: a whole
history is in bounds from every state when the drawn samples are `Covered`.  Missing: samples that are not covered; those do read out of bounds
(`C63_out_of_bounds`, `C63_refuted`). -/
theorem C63_in_bounds_partial [LinearOrder K] [IsStrictOrderedRing K] (P : VrtosArgs K n p) (hP : P.Good) (S1 : Support n P.blocks1.nb)
    (S2 : Support n P.blocks2.nb) (hS1 : P.support1 = some S1) (hS2 : P.support2 = some S2) (hstep : 0 ≤ P.stepSize)
    (hp1 : TotalProx P.blocks1.nb P.prox1) (hp2 : TotalProx P.blocks2.nb P.prox2) : ∀ (idx : List ℕ) (st : VrtosState K n p),
      (∀ k ∈ idx, ∃ h : k < n, Covered P ⟨k, h⟩) → ∃ st', vrtosEpoch P S1 S2 st idx = some st' := by
  obtain ⟨S', hS', hok1⟩ := hP.support1
  rw [hS1] at hS'
  obtain rfl := Option.some.inj hS'
  obtain ⟨S', hS', hok2⟩ := hP.support2
  rw [hS2] at hS'
  obtain rfl := Option.some.inj hS'
  intro idx
  induction idx with
  | nil => intro st _; exact ⟨st, rfl⟩
  | cons k idx ih =>
    intro st h
    obtain ⟨hk, hcov⟩ := h k (by simp)
    obtain ⟨s, hs⟩ := vrtosStep_some P hP hok1 hok2 hstep hp1 hp2 ⟨k, hk⟩ hcov st
    obtain ⟨t, ht⟩ := ih s fun q hq => h q (by simp [hq])
    refine ⟨t, ?_⟩
    unfold vrtosEpoch at ht ⊢
    rw [List.foldlM_cons]
    exact Option.bind_eq_some_iff.mpr ⟨s, hs, ht⟩

/-- Data without empty columns is covered. -/
theorem covered_of_full (P : VrtosArgs K n p) (hfull : ∀ c : Fin p, ∃ i : Fin n, StoresAt P.A.indptr P.A.indices i c) (i : Fin n) : Covered P i := by
  intro c h1 h2 e1 e2 _
  obtain ⟨j, hj⟩ := hfull c
  exact ⟨⟨j, h1, ⟨c, hj, e1⟩, le_refl _⟩, ⟨j, h2, ⟨c, hj, e2⟩, le_refl _⟩⟩

/-- C63 for data without empty columns: no further condition. -/
theorem C63_full_columns_partial [LinearOrder K] [IsStrictOrderedRing K] (P : VrtosArgs K n p) (hP : P.Good) (S1 : Support n P.blocks1.nb)
    (S2 : Support n P.blocks2.nb) (hS1 : P.support1 = some S1) (hS2 : P.support2 = some S2) (hstep : 0 ≤ P.stepSize)
    (hp1 : TotalProx P.blocks1.nb P.prox1) (hp2 : TotalProx P.blocks2.nb P.prox2)
    (hfull : ∀ c : Fin p, ∃ i : Fin n, StoresAt P.A.indptr P.A.indices i c) (idx : List ℕ) (st : VrtosState K n p) (hidx : ∀ k ∈ idx, k < n) :
    ∃ st', vrtosEpoch P S1 S2 st idx = some st' :=
  C63_in_bounds_partial P hP S1 S2 hS1 hS2 hstep hp1 hp2 idx st fun k hk => ⟨hidx k hk, covered_of_full P hfull _⟩

/-- **C63 (exactness).** From a state with clean scratch array, a step on a sample that is not `Covered` reads `d1` or `d2` out of bounds, whatever the
arrays contain and whatever the proximal routines do. -/
theorem C63_out_of_bounds (P : VrtosArgs K n p) (hP : P.Good) (S1 : Support n P.blocks1.nb) (S2 : Support n P.blocks2.nb) (hS1 : P.support1 = some S1)
    (hS2 : P.support2 = some S2) (i : Fin n) (hcov : ¬Covered P i) (st : VrtosState K n p) (htmp : ∀ c, st.tmp c = 0) : vrtosStep P S1 S2 st i = none := by
  obtain ⟨S', hS', hok1⟩ := hP.support1
  rw [hS1] at hS'
  obtain rfl := Option.some.inj hS'
  obtain ⟨S', hS', hok2⟩ := hP.support2
  rw [hS2] at hS'
  obtain rfl := Option.some.inj hS'
  cases h : vrtosStep P S1 S2 st i with
  | none => rfl
  | some st' =>
    obtain ⟨-, -, -, -, -, -, -, -, -, hb, -⟩ := vrtosStep_spec P hP hok1 hok2 st st' (funext htmp) i h
    exact absurd ((covered_iff P hP hok1 hok2 i).mpr hb) hcov

/-- One sample storing feature 0 of two; structure 1 is the block `{0, 1}`, structure 2 single features. -/
def exVrtosBad : VrtosArgs ℚ 1 2 :=
  { A := { nnz := 1, data := ![1], indices := ![0], indptr := ![0, 1] }, bSize := 1, b := ![1], deriv := fun t b => t - b, alpha := 0, x0 := ![0, 0],
    stepSize := 1 / 2, blocks1 := { nb := 1, nz := 2, ptr := ![0, 2], idx := fun k => k }, blocks2 := BlockMat.eye 2, prox1 := noProx,
    prox2 := noProx, maxIter := 1, tol := 1 / 1000, order := fun _ => [0] }

theorem exVrtosBad_good : exVrtosBad.Good := by
  refine ⟨⟨?_, ?_, ?_⟩, ?_, ⟨⟨rfl, rfl, ?_⟩, rfl, fun _ => rfl⟩, goodBlocks_eye 2, rfl⟩
  · intro i; fin_cases i <;> simp [exVrtosBad]
  · intro i; fin_cases i <;> simp [exVrtosBad]
  · intro i; change Fin 1 at i; fin_cases i; simp [exVrtosBad]
  · intro i j k _ _ _ _ h
    exact Subsingleton.elim (α := Fin 1) j k
  · intro h
    change Fin 1 at h
    fin_cases h
    show (![0, 2] : Fin 2 → ℕ) 0 ≤ (![0, 2] : Fin 2 → ℕ) 1
    simp

/-- **C63 is false of the code**: on well-formed arguments the very first (warm-up) step reads `d2[1]`, and `d2` has one entry. -/
theorem C63_refuted : ∃ P : VrtosArgs ℚ 1 2, P.Good ∧ minimizeVrtos P = .error .memoryFault := by
  refine ⟨exVrtosBad, exVrtosBad_good, ?_⟩
  have h : (match minimizeVrtos exVrtosBad with | .error .memoryFault => true | _ => false) = true := by decide +kernel
  split at h
  · assumption
  · simp at h

/-! ### C62 -/

/-- **C62 is false of the code (success).** A finished call never reports success and never looks at `tol`: it runs all `max_iter` epochs. -/
theorem C62_never_success [LinearOrder K] (P : VrtosArgs K n p) (r : VrtosResult K n p) (h : minimizeVrtos P = .ok r) :
    r.success = false ∧ r.nit = P.maxIter - 1 ∧ ∀ t, minimizeVrtos { P with tol := t } = .ok r := by
  obtain ⟨-, -, -, -, -, -, -, h1, h2, -⟩ := minimizeVrtos_ok h
  refine ⟨h1, h2, fun t => ?_⟩
  have key : ∀ S1 S2 k it st, vrtosLoop { P with tol := t } S1 S2 k it st = vrtosLoop P S1 S2 k it st := by
    intro S1 S2 k it st
    rw [vrtosLoop_history, vrtosLoop_history]
    rfl
  rw [← h]
  unfold minimizeVrtos
  simp only [key]
  rfl

/-- One sample, one feature, squared loss with target `t`, start 0. -/
def exVrtos (t : ℚ) : VrtosArgs ℚ 1 1 :=
  { A := { nnz := 1, data := ![1], indices := ![0], indptr := ![0, 1] }, bSize := 1, b := ![t], deriv := fun t b => t - b, alpha := 0, x0 := ![0],
    stepSize := 1 / 2, blocks1 := BlockMat.eye 1, blocks2 := BlockMat.eye 1, prox1 := noProx, prox2 := noProx, maxIter := 3, tol := 1 / 1000,
    order := fun _ => [0] }

theorem exVrtos_good (t : ℚ) : (exVrtos t).Good := by
  refine ⟨⟨?_, ?_, ?_⟩, ?_, goodBlocks_eye 1, goodBlocks_eye 1, rfl⟩
  · intro i; fin_cases i; simp [exVrtos]
  · intro i; fin_cases i <;> simp [exVrtos]
  · intro i; change Fin 1 at i; fin_cases i; simp [exVrtos]
  · intro i j k _ _ _ _ h
    exact Subsingleton.elim (α := Fin 1) j k

/-- **C62 is false of the code**: a call that changes the caller's `x0`, and a call whose certificate is 0 from the start, below `tol`, that still runs
every epoch and reports failure. -/
theorem C62_refuted :
    (∃ r, minimizeVrtos (exVrtos 1) = .ok r ∧ r.callerX0 ≠ (exVrtos 1).x0) ∧
    ∃ r, minimizeVrtos (exVrtos 0) = .ok r ∧ r.final.x1 = r.final.z ∧ r.final.x2 = r.final.z ∧ 0 < (exVrtos 0).tol ∧ r.success = false ∧ r.nit = 2 := by
  constructor
  · have h : (match minimizeVrtos (exVrtos 1) with | .ok r => decide (r.callerX0 ≠ (exVrtos 1).x0) | _ => false) = true := by decide +kernel
    split at h
    · exact ⟨_, by assumption, of_decide_eq_true h⟩
    · simp at h
  · have h : (match minimizeVrtos (exVrtos 0) with
      | .ok r => decide (r.final.x1 = r.final.z ∧ r.final.x2 = r.final.z ∧ 0 < (exVrtos 0).tol ∧ r.success = false ∧ r.nit = 2) | _ => false) = true := by
      decide +kernel
    split at h
    · exact ⟨_, by assumption, of_decide_eq_true h⟩
    · simp at h

/-- **C62 (what holds).** Full claim: the caller's `x0` is not modified.  Proved: its entries outside the blocks of structure 1 touched by some sample are
not modified.  Missing: the touched entries, which are overwritten (`C62_refuted`). -/
theorem C62_untouched_partial [LinearOrder K] (P : VrtosArgs K n p) (hP : P.Good) (hloc : LocalProx P.blocks1 P.prox1) (r : VrtosResult K n p)
    (h : minimizeVrtos P = .ok r) (c : Fin p)
    (hc : ∀ (i : Fin n) (h : Fin P.blocks1.nb), InBlock P.blocks1.ptr h c → ¬Touches P.A.indptr P.A.indices P.blocks1.ptr i h) :
    r.callerX0 c = P.x0 c := by
  obtain ⟨S1, S2, h1, h2, -, h4, -, -, -, h5⟩ := minimizeVrtos_ok h
  obtain ⟨S', hS', hok1⟩ := hP.support1
  rw [h1] at hS'
  obtain rfl := Option.some.inj hS'
  obtain ⟨S', hS', hok2⟩ := hP.support2
  rw [h2] at hS'
  obtain rfl := Option.some.inj hS'
  rw [h5]
  have key : ∀ (idx : List ℕ) (st : VrtosState K n p), vrtosEpoch P S1 S2 (vrtosInit P) idx = some st → st.x1 c = P.x0 c := by
    intro idx
    induction idx using List.reverseRecOn with
    | nil => intro st h; obtain rfl := Option.some.inj h; rfl
    | append_singleton idx k ih =>
      intro st h
      rw [vrtosEpoch_append] at h
      obtain ⟨s, hs, h⟩ := Option.bind_eq_some_iff.mp h
      unfold vrtosEpoch at h
      rw [List.foldlM_cons] at h
      obtain ⟨t, h2', h3⟩ := Option.bind_eq_some_iff.mp h
      obtain rfl := Option.some.inj h3
      have hk := vrtosStep_lt h2'
      have hI := vrtosMem P hP h1 h2 idx s hs
      obtain ⟨hs1, hs2, v1, v2, r1, -, a1, -⟩ := vrtosStep_spec P hP hok1 hok2 s t hI.tmp ⟨k, hk⟩ h2'
      obtain ⟨hs1', r1', -, -, hmem⟩ := hok1.row ⟨k, hk⟩
      rw [r1] at r1'
      obtain rfl := Option.some.inj r1'
      have hnn : ¬Near P.A hP.blocks1 ⟨k, hk⟩ c := fun hh => hc _ _ (hP.blocks1.of_spec c) hh
      rw [hloc _ _ _ _ _ _ a1.prox c (fun h hin hm => hc _ h hin ((hmem h).mp hm)), a1.far c hnn, ih s hs]
  exact key _ _ h4

end Copt
