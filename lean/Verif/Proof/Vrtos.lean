import Verif.Proof.Saga

/-! # One inner step of VRTOS in closed form -/

set_option linter.unusedSectionVars false

namespace Copt

open Spec

/-- A fold that succeeds keeps its result when the body is extended. -/
theorem foldlM_mono {α σ : Type} {f g : σ → α → Option σ} : ∀ (l : List α) (s r : σ), (∀ a ∈ l, ∀ s t, f s a = some t → g s a = some t) →
    l.foldlM f s = some r → l.foldlM g s = some r := by
  intro l
  induction l with
  | nil => intro s r _ h; exact h
  | cons a l ih =>
    intro s r hfg h
    rw [List.foldlM_cons] at h ⊢
    obtain ⟨t, h1, h2⟩ := Option.bind_eq_some_iff.mp h
    rw [hfg a (by simp) s t h1]
    exact ih t r (fun b hb => hfg b (by simp [hb])) h2

/-- If a fold succeeds then its body succeeded once on every element. -/
theorem foldlM_mem {α σ : Type} {f : σ → α → Option σ} : ∀ (l : List α) (s r : σ), l.foldlM f s = some r → ∀ a ∈ l, ∃ s t, f s a = some t := by
  intro l
  induction l with
  | nil => intro s r _ a ha; simp at ha
  | cons b l ih =>
    intro s r h a ha
    rw [List.foldlM_cons] at h
    obtain ⟨t, h1, h2⟩ := Option.bind_eq_some_iff.mp h
    rcases List.mem_cons.mp ha with rfl | ha
    · exact ⟨s, t, h1⟩
    · exact ih t r h2 a ha

variable {K : Type} [Field K] {n p : ℕ}

/-- Features of block `h`. -/
theorem mem_blockRange {B : BlockMat} (hB : GoodBlocks B p) {h : ℕ} (hh : h < B.nb) (j : ℕ) :
    j ∈ List.range' (B.ptr ⟨h, by omega⟩) (B.ptr ⟨h + 1, by omega⟩ - B.ptr ⟨h, by omega⟩) ↔ ∃ hj : j < p, (hB.of ⟨j, hj⟩).val = h := by
  rw [List.mem_range'_1]
  have hmono : B.ptr ⟨h, by omega⟩ ≤ B.ptr ⟨h + 1, by omega⟩ := hB.cuts.mono ⟨h, hh⟩
  constructor
  · intro hc
    have hin : InBlock B.ptr ⟨h, hh⟩ j := ⟨hc.1, by show j < B.ptr ⟨h + 1, _⟩; omega⟩
    exact ⟨hB.cuts.lt hin, by rw [hB.of_eq (c := ⟨j, hB.cuts.lt hin⟩) hin]⟩
  · rintro ⟨hj, he⟩
    have := hB.of_spec ⟨j, hj⟩
    rw [show hB.of ⟨j, hj⟩ = ⟨h, hh⟩ from Fin.ext he] at this
    have h1 : B.ptr ⟨h, by omega⟩ ≤ j := this.1
    have h2 : j < B.ptr ⟨h + 1, by omega⟩ := this.2
    omega

theorem forBlocks_mem {B : BlockMat} (hB : GoodBlocks B p) {body : ℕ → (Fin p → K) → ℕ → Option (Fin p → K)} {hs : List ℕ} (hlt : ∀ h ∈ hs, h < B.nb)
    {x x' : Fin p → K} (he : forBlocks B body hs x = some x') (c : Fin p) (hc : (hB.of c).val ∈ hs) : ∃ s t, body (hB.of c).val s c = some t := by
  obtain ⟨s, t, h⟩ := foldlM_mem hs x x' he _ hc
  rw [rd_lt B.ptr (by have := hlt _ hc; omega : (hB.of c).val < B.nb + 1), rd_lt B.ptr (by have := hlt _ hc; omega : (hB.of c).val + 1 < B.nb + 1)] at h
  simp only [Option.bind_eq_bind, Option.bind_some] at h
  exact foldlM_mem _ s t h c.val ((mem_blockRange hB (hlt _ hc) c.val).mpr ⟨c.isLt, rfl⟩)

/-- The result of a successful pass over blocks. -/
theorem forBlocks_of_some {B : BlockMat} (hB : GoodBlocks B p) {F : ℕ → ℕ → K → K} {body : ℕ → (Fin p → K) → ℕ → Option (Fin p → K)} (hs : List ℕ)
    (hnd : hs.Nodup) (hlt : ∀ h ∈ hs, h < B.nb)
    (hbody : ∀ h ∈ hs, ∀ j, (hj : j < p) → (hB.of ⟨j, hj⟩).val = h → ∀ x t : Fin p → K, body h x j = some t →
      t = Function.update x ⟨j, hj⟩ (F h j (x ⟨j, hj⟩))) (x x' : Fin p → K) (he : forBlocks B body hs x = some x') :
    ∀ c : Fin p, x' c = if (hB.of c).val ∈ hs then F (hB.of c).val c (x c) else x c := by
  classical
  obtain ⟨x'', he', hx⟩ := forBlocks_spec hB (F := F)
    (body := fun h x j => if hj : j < p then some (Function.update x ⟨j, hj⟩ (F h j (x ⟨j, hj⟩))) else none) hs hnd hlt
    (by intro h hh j hj _ x; simp only [dif_pos hj]) x
  have : some x'' = some x' := by
    rw [← he']
    unfold forBlocks at he ⊢
    refine foldlM_mono hs x x' (fun h hh s t hst => ?_) he
    have hh' := hlt h hh
    rw [rd_lt B.ptr (by omega : h < B.nb + 1), rd_lt B.ptr (by omega : h + 1 < B.nb + 1)] at hst ⊢
    simp only [Option.bind_eq_bind, Option.bind_some] at hst ⊢
    refine foldlM_mono _ s t (fun j hj s t hst => ?_) hst
    obtain ⟨hjp, hof⟩ := (mem_blockRange hB hh' j).mp hj
    rw [dif_pos hjp, hbody h hh j hjp hof s t hst]
  rw [← Option.some.inj this]
  exact hx

/-- Well-formed arguments. -/
structure VrtosArgs.Good (P : VrtosArgs K n p) : Prop where
  csr : GoodCsr p P.A.indptr P.A.indices
  nodup : NoDuplicates P.A.indptr P.A.indices
  blocks1 : GoodBlocks P.blocks1 p
  blocks2 : GoodBlocks P.blocks2 p
  size : n = P.bSize

/-- The targets, one per sample. -/
def VrtosArgs.target (P : VrtosArgs K n p) (h : n = P.bSize) (i : Fin n) : K := P.b (i.cast h)

/-- The derivative of sample `i` at `x`. -/
def VrtosArgs.gi (P : VrtosArgs K n p) (h : n = P.bSize) (x : Fin p → K) (i : Fin n) : K := P.deriv (∑ c : Fin p, P.A.ent i c * x c) (P.target h i)

/-- The support matrices, randomized.py:578-592. -/
def VrtosArgs.support1 (P : VrtosArgs K n p) : Option (Support n P.blocks1.nb) := supportMatrix P.A.indices P.A.indptr P.rb1 P.blocks1.nb
/-- See `support1`. -/
def VrtosArgs.support2 (P : VrtosArgs K n p) : Option (Support n P.blocks2.nb) := supportMatrix P.A.indices P.A.indptr P.rb2 P.blocks2.nb

theorem VrtosArgs.Good.support1 {P : VrtosArgs K n p} (hP : P.Good) : ∃ S, P.support1 = some S ∧ SupportOk P.A hP.blocks1 S := supportOk hP.csr hP.blocks1
theorem VrtosArgs.Good.support2 {P : VrtosArgs K n p} (hP : P.Good) : ∃ S, P.support2 = some S ∧ SupportOk P.A hP.blocks2 S := supportOk hP.csr hP.blocks2

/-- Weights of touched blocks, in the total form. -/
theorem SupportOk.getD0_weight {A : CsrMat K n p} {B : BlockMat} {hB : GoodBlocks B p} {S : Support n B.nb} (hS : SupportOk A hB S) {c : Fin p}
    {i : Fin n} (ht : Near A hB i c) : (hB.of c).val < supWidth S.bs ∧
      getD0 (supWeights n S.bs : Fin (supWidth S.bs) → K) (hB.of c).val = blockWeight A hB c := by
  have hw := (hS.weight (K := K) ht).2
  have hlt : (hB.of c).val < supWidth S.bs := by
    by_contra hn
    rw [show rd (supWeights n S.bs : Fin (supWidth S.bs) → K) (hB.of c).val = none from dif_neg hn] at hw
    simp at hw
  rw [rd_eq_getD0 _ hlt] at hw
  exact ⟨hlt, by rw [Option.some.inj hw]; rfl⟩

theorem rblocks_rd {B : BlockMat} (hB : GoodBlocks B p) (c : Fin p) :
    rd (fun k : Fin (B.rblocks p).length => (B.rblocks p).get k) c.val = some (hB.of c).val := by
  have hlen : (B.rblocks p).length = p := by rw [hB.rblocks_eq, List.length_ofFn]
  rw [rd_lt _ (by rw [hlen]; exact c.isLt : c.val < (B.rblocks p).length)]
  congr 1
  rw [List.get_eq_getElem]
  have : ∀ (L : List ℕ) (h : L = List.ofFn fun c : Fin p => (hB.of c).val) (hk : c.val < L.length), L[c.val] = (hB.of c).val := by
    rintro L rfl hk
    simp
  exact this _ hB.rblocks_eq _

/-- One prox half of a step. -/
structure VrtosHalf {B : BlockMat} (P : VrtosArgs K n p) (hs' : n = P.bSize) (hB : GoodBlocks B p) (S : Support n B.nb) (prox : SparseProx K p) (st : VrtosState K n p) (i : Fin n)
    (y x y' x' : Fin p → K) (hs : List ℕ) (v : Fin p → K) : Prop where
  near : ∀ c, Near P.A hB i c → v c = 2 * st.z c - y c - P.stepSize * (1 / 2) * ((P.gi hs' st.z i - st.mem i) * P.A.ent i c +
    blockWeight P.A hB c * (st.avg c + P.alpha * st.z c))
  far : ∀ c, ¬Near P.A hB i c → v c = x c
  prox : prox _ (supWeights n S.bs) P.stepSize hs v = some x'
  ynear : ∀ c, Near P.A hB i c → y' c = y c + (x' c - st.z c)
  yfar : ∀ c, ¬Near P.A hB i c → y' c = y c

theorem vrtos_half {B : BlockMat} (P : VrtosArgs K n p) (hs' : n = P.bSize) (hB : GoodBlocks B p) {S : Support n B.nb} (hS : SupportOk P.A hB S)
    (prox : SparseProx K p) (st : VrtosState K n p) (i : Fin n) (y x : Fin p → K) {hs : List ℕ} (hr : S.row i = some hs) (tmp : Fin p → K)
    (htv : ∀ c : Fin p, tmp c = (P.gi hs' st.z i - st.mem i) * P.A.ent i c) (v x' y' : Fin p → K)
    (h1 : forBlocks B (vrtosBody (supWeights n S.bs) st.avg tmp st.z y P.alpha P.stepSize) hs x = some v)
    (h2 : prox _ (supWeights n S.bs) P.stepSize hs v = some x') (h3 : forBlocks B (vrtosY x' st.z) hs y = some y') :
    VrtosHalf P hs' hB S prox st i y x y' x' hs v := by
  obtain ⟨hs₀, hr₀, hnd, hlt, hmem⟩ := hS.row i
  rw [hr] at hr₀
  obtain rfl := Option.some.inj hr₀
  have e1 := forBlocks_of_some hB (F := fun h j _ => 2 * getD0 st.z j - getD0 y j - P.stepSize * (1 / 2) * (getD0 tmp j +
      getD0 (supWeights n S.bs : Fin (supWidth S.bs) → K) h * (getD0 st.avg j + P.alpha * getD0 st.z j))) hs hnd hlt (by
    intro h hh j hj hof x t ht
    unfold vrtosBody at ht
    obtain ⟨a, ha, ht⟩ := Option.bind_eq_some_iff.mp ht
    have hha : h < supWidth S.bs := by
      by_contra hn
      rw [show rd (supWeights n S.bs : Fin (supWidth S.bs) → K) h = none from dif_neg hn] at ha
      simp at ha
    rw [rd_eq_getD0 _ hha] at ha
    rw [rd_eq_getD0 _ hj, rd_eq_getD0 _ hj, rd_eq_getD0 _ hj, rd_eq_getD0 _ hj] at ht
    simp only [Option.bind_eq_bind, Option.bind_some, wr_lt x hj] at ht
    rw [← Option.some.inj ht, ← Option.some.inj ha]) x v h1
  have e2 := forBlocks_of_some hB (F := fun _ j yj => yj + (getD0 x' j - getD0 st.z j)) hs hnd hlt (by
    intro h hh j hj hof y t ht
    unfold vrtosY at ht
    rw [rd_lt y hj, rd_eq_getD0 _ hj, rd_eq_getD0 _ hj] at ht
    simp only [Option.bind_eq_bind, Option.bind_some, wr_lt y hj] at ht
    rw [← Option.some.inj ht]) y y' h3
  refine ⟨fun c hc => ?_, fun c hc => ?_, h2, fun c hc => ?_, fun c hc => ?_⟩
  · rw [e1 c, if_pos ((hmem _).mpr hc), (hS.getD0_weight hc).2]
    simp only [getD0_lt _ c.isLt, Fin.eta, htv]
  · rw [e1 c, if_neg fun h => hc ((hmem _).mp h)]
  · rw [e2 c, if_pos ((hmem _).mpr hc)]
    simp only [getD0_lt _ c.isLt, Fin.eta]
  · rw [e2 c, if_neg fun h => hc ((hmem _).mp h)]

theorem vrtosStep_lt {P : VrtosArgs K n p} {S1 : Support n P.blocks1.nb} {S2 : Support n P.blocks2.nb} {st st' : VrtosState K n p} {i : ℕ}
    (h : vrtosStep P S1 S2 st i = some st') : i < n := by
  by_contra hc
  unfold vrtosStep at h
  obtain ⟨row, -, h⟩ := Option.bind_eq_some_iff.mp h
  obtain ⟨d, -, h⟩ := Option.bind_eq_some_iff.mp h
  obtain ⟨bi, -, h⟩ := Option.bind_eq_some_iff.mp h
  obtain ⟨mi, hm, h⟩ := Option.bind_eq_some_iff.mp h
  rw [show rd st.mem i = none from dif_neg hc] at hm
  simp at hm

open Classical in
theorem vrtosStep_spec (P : VrtosArgs K n p) (hP : P.Good) {S1 : Support n P.blocks1.nb} {S2 : Support n P.blocks2.nb}
    (hS1 : SupportOk P.A hP.blocks1 S1) (hS2 : SupportOk P.A hP.blocks2 S2) (st st' : VrtosState K n p) (htmp : st.tmp = fun _ => 0) (i : Fin n)
    (h : vrtosStep P S1 S2 st i = some st') : ∃ hs1 hs2 v1 v2, S1.row i = some hs1 ∧ S2.row i = some hs2 ∧
      VrtosHalf P hP.size hP.blocks1 S1 P.prox1 st i st.y1 st.x1 st'.y1 st'.x1 hs1 v1 ∧
      VrtosHalf P hP.size hP.blocks2 S2 P.prox2 st i st.y2 st.x2 st'.y2 st'.x2 hs2 v2 ∧
      (∀ c, st'.z c = if Near P.A hP.blocks1 i c ∨ Near P.A hP.blocks2 i c then
        (1 / getD0 (supWeights n S1.bs : Fin (supWidth S1.bs) → K) (hP.blocks1.of c).val * st'.y1 c +
          1 / getD0 (supWeights n S2.bs : Fin (supWidth S2.bs) → K) (hP.blocks2.of c).val * st'.y2 c) /
        (1 / getD0 (supWeights n S1.bs : Fin (supWidth S1.bs) → K) (hP.blocks1.of c).val +
          1 / getD0 (supWeights n S2.bs : Fin (supWidth S2.bs) → K) (hP.blocks2.of c).val) else st.z c) ∧
      (∀ c, Near P.A hP.blocks1 i c ∨ Near P.A hP.blocks2 i c → (hP.blocks1.of c).val < supWidth S1.bs ∧ (hP.blocks2.of c).val < supWidth S2.bs) ∧
      st'.mem = Function.update st.mem i (P.gi hP.size st.z i) ∧
      (∀ c, st'.avg c = st.avg c + (P.gi hP.size st.z i - st.mem i) * P.A.ent i c / (n : K)) ∧ st'.tmp = fun _ => 0 := by
  obtain ⟨hs1, hr1, hnd1, hlt1, hm1⟩ := hS1.row i
  obtain ⟨hs2, hr2, hnd2, hlt2, hm2⟩ := hS2.row i
  obtain ⟨tmp, ht, htv⟩ := rowScatter_spec hP.csr hP.nodup i (P.gi hP.size st.z i - st.mem i) st.tmp
  have htv' : ∀ c : Fin p, tmp c = (P.gi hP.size st.z i - st.mem i) * P.A.ent i c := by
    intro c
    rw [htv c]
    by_cases h : StoresAt P.A.indptr P.A.indices i c
    · rw [if_pos h]
    · rw [if_neg h, ent_eq_zero h, htmp, mul_zero]
  obtain ⟨s', hm, hma, hmt⟩ := rowMemory_spec hP.csr i n (P.gi hP.size st.z i - st.mem i) (st.avg, tmp)
  unfold vrtosStep at h
  obtain ⟨row, e, h⟩ := Option.bind_eq_some_iff.mp h
  rw [CsrMat.row_eq hP.csr] at e
  obtain rfl := Option.some.inj e
  obtain ⟨dot, e, h⟩ := Option.bind_eq_some_iff.mp h
  rw [rowDot_spec hP.csr] at e
  obtain rfl := Option.some.inj e
  obtain ⟨bi, e, h⟩ := Option.bind_eq_some_iff.mp h
  rw [rd_lt P.b (by have := hP.size; omega : i.val < P.bSize)] at e
  obtain rfl := Option.some.inj e
  obtain ⟨mi, e, h⟩ := Option.bind_eq_some_iff.mp h
  rw [rd_fin st.mem] at e
  obtain rfl := Option.some.inj e
  have hgi : P.deriv (∑ c : Fin p, P.A.ent i c * st.z c) (P.b ⟨i.val, by have := hP.size; omega⟩) = P.gi hP.size st.z i := rfl
  rw [hgi] at h
  obtain ⟨tmp', e, h⟩ := Option.bind_eq_some_iff.mp h
  rw [ht] at e
  obtain rfl := Option.some.inj e
  obtain ⟨hs1', e, h⟩ := Option.bind_eq_some_iff.mp h
  rw [hr1] at e
  obtain rfl := Option.some.inj e
  obtain ⟨hs2', e, h⟩ := Option.bind_eq_some_iff.mp h
  rw [hr2] at e
  obtain rfl := Option.some.inj e
  obtain ⟨v1, a1, h⟩ := Option.bind_eq_some_iff.mp h
  obtain ⟨x1, a2, h⟩ := Option.bind_eq_some_iff.mp h
  obtain ⟨y1, a3, h⟩ := Option.bind_eq_some_iff.mp h
  obtain ⟨v2, b1, h⟩ := Option.bind_eq_some_iff.mp h
  obtain ⟨x2, b2, h⟩ := Option.bind_eq_some_iff.mp h
  obtain ⟨y2, b3, h⟩ := Option.bind_eq_some_iff.mp h
  obtain ⟨z1, c1, h⟩ := Option.bind_eq_some_iff.mp h
  obtain ⟨z2, c2, h⟩ := Option.bind_eq_some_iff.mp h
  obtain ⟨s'', e, h⟩ := Option.bind_eq_some_iff.mp h
  rw [hm] at e
  obtain rfl := Option.some.inj e
  obtain ⟨m', e, h⟩ := Option.bind_eq_some_iff.mp h
  rw [wr_lt st.mem i.isLt] at e
  obtain rfl := Option.some.inj e
  obtain rfl := Option.some.inj h
  have hbd : ∀ (h : ℕ) (j : ℕ) (hj : j < p) (z t : Fin p → K),
      vrtosZ (supWeights n S1.bs) (supWeights n S2.bs) P.rb1 P.rb2 y1 y2 h z j = some t →
      (hP.blocks1.of ⟨j, hj⟩).val < supWidth S1.bs ∧ (hP.blocks2.of ⟨j, hj⟩).val < supWidth S2.bs ∧
      t = Function.update z ⟨j, hj⟩ ((1 / getD0 (supWeights n S1.bs : Fin (supWidth S1.bs) → K) (hP.blocks1.of ⟨j, hj⟩).val * y1 ⟨j, hj⟩ +
          1 / getD0 (supWeights n S2.bs : Fin (supWidth S2.bs) → K) (hP.blocks2.of ⟨j, hj⟩).val * y2 ⟨j, hj⟩) /
        (1 / getD0 (supWeights n S1.bs : Fin (supWidth S1.bs) → K) (hP.blocks1.of ⟨j, hj⟩).val +
          1 / getD0 (supWeights n S2.bs : Fin (supWidth S2.bs) → K) (hP.blocks2.of ⟨j, hj⟩).val)) := by
    intro h j hj z t ht
    unfold vrtosZ at ht
    have e1 := rblocks_rd hP.blocks1 ⟨j, hj⟩
    have e2 := rblocks_rd hP.blocks2 ⟨j, hj⟩
    simp only at e1 e2
    unfold VrtosArgs.rb1 VrtosArgs.rb2 at ht
    rw [e1, e2] at ht
    simp only [Option.bind_eq_bind, Option.bind_some] at ht
    obtain ⟨a, ha, ht⟩ := Option.bind_eq_some_iff.mp ht
    obtain ⟨b, hb, ht⟩ := Option.bind_eq_some_iff.mp ht
    have hl1 : (hP.blocks1.of ⟨j, hj⟩).val < supWidth S1.bs := by
      by_contra hn
      rw [show rd (supWeights n S1.bs : Fin (supWidth S1.bs) → K) _ = none from dif_neg hn] at ha
      simp at ha
    have hl2 : (hP.blocks2.of ⟨j, hj⟩).val < supWidth S2.bs := by
      by_contra hn
      rw [show rd (supWeights n S2.bs : Fin (supWidth S2.bs) → K) _ = none from dif_neg hn] at hb
      simp at hb
    rw [rd_eq_getD0 _ hl1] at ha
    rw [rd_eq_getD0 _ hl2] at hb
    rw [rd_lt _ hj, rd_lt _ hj] at ht
    simp only [Option.bind_some, wr_lt z hj] at ht
    exact ⟨hl1, hl2, by rw [← Option.some.inj ht, ← Option.some.inj ha, ← Option.some.inj hb]⟩
  have d1 := forBlocks_of_some hP.blocks1 (F := fun _ j _ =>
      if hj : j < p then (1 / getD0 (supWeights n S1.bs : Fin (supWidth S1.bs) → K) (hP.blocks1.of ⟨j, hj⟩).val * y1 ⟨j, hj⟩ +
          1 / getD0 (supWeights n S2.bs : Fin (supWidth S2.bs) → K) (hP.blocks2.of ⟨j, hj⟩).val * y2 ⟨j, hj⟩) /
        (1 / getD0 (supWeights n S1.bs : Fin (supWidth S1.bs) → K) (hP.blocks1.of ⟨j, hj⟩).val +
          1 / getD0 (supWeights n S2.bs : Fin (supWidth S2.bs) → K) (hP.blocks2.of ⟨j, hj⟩).val) else 0) hs1 hnd1 hlt1
    (by intro h hh j hj _ x t ht; rw [dif_pos hj]; exact (hbd h j hj x t ht).2.2) st.z z1 c1
  have d2 := forBlocks_of_some hP.blocks2 (F := fun _ j _ =>
      if hj : j < p then (1 / getD0 (supWeights n S1.bs : Fin (supWidth S1.bs) → K) (hP.blocks1.of ⟨j, hj⟩).val * y1 ⟨j, hj⟩ +
          1 / getD0 (supWeights n S2.bs : Fin (supWidth S2.bs) → K) (hP.blocks2.of ⟨j, hj⟩).val * y2 ⟨j, hj⟩) /
        (1 / getD0 (supWeights n S1.bs : Fin (supWidth S1.bs) → K) (hP.blocks1.of ⟨j, hj⟩).val +
          1 / getD0 (supWeights n S2.bs : Fin (supWidth S2.bs) → K) (hP.blocks2.of ⟨j, hj⟩).val) else 0) hs2 hnd2 hlt2
    (by intro h hh j hj _ x t ht; rw [dif_pos hj]; exact (hbd h j hj x t ht).2.2) z1 z2 c2
  refine ⟨hs1, hs2, v1, v2, hr1, hr2, vrtos_half P hP.size hP.blocks1 hS1 P.prox1 st i st.y1 st.x1 hr1 tmp htv' v1 x1 y1 a1 a2 a3,
    vrtos_half P hP.size hP.blocks2 hS2 P.prox2 st i st.y2 st.x2 hr2 tmp htv' v2 x2 y2 b1 b2 b3, fun c => ?_, fun c hc => ?_, rfl, fun c => hma c, ?_⟩
  · show z2 c = _
    rw [d2 c, d1 c]
    by_cases h1 : Near P.A hP.blocks1 i c
    · rw [if_pos (Or.inl h1), if_pos ((hm1 _).mpr h1)]
      simp
    · rw [if_neg (fun h => h1 ((hm1 _).mp h))]
      by_cases h2 : Near P.A hP.blocks2 i c
      · rw [if_pos (Or.inr h2), if_pos ((hm2 _).mpr h2)]
        simp
      · rw [if_neg (fun h => h2 ((hm2 _).mp h)), if_neg (by tauto)]
  · rcases hc with hc | hc
    · obtain ⟨s, t, ht⟩ := forBlocks_mem hP.blocks1 hlt1 c1 c ((hm1 _).mpr hc)
      have := hbd _ c.val c.isLt s t ht
      exact ⟨this.1, this.2.1⟩
    · obtain ⟨s, t, ht⟩ := forBlocks_mem hP.blocks2 hlt2 c2 c ((hm2 _).mpr hc)
      have := hbd _ c.val c.isLt s t ht
      exact ⟨this.1, this.2.1⟩
  · show s'.2 = _
    funext c
    rw [hmt c]
    by_cases h : StoresAt P.A.indptr P.A.indices i c
    · rw [if_pos h]
    · rw [if_neg h]
      show tmp c = 0
      rw [htv' c, ent_eq_zero h, mul_zero]

end Copt
