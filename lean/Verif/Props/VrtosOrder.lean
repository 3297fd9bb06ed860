import Verif.Proof.Objects
import Verif.Proof.TableSplitting
import Verif.Props.VrtosMean

/-! # `minimize_vrtos` when every sample touches every block: convergence for every visiting order (C113)

Each pass goes through `np.random.permutation(n_samples)` (randomized.py:544-555). Nothing is assumed about these permutations. -/

set_option linter.unusedSectionVars false

namespace Copt

open Spec Filter

variable {n p : ℕ}

/-- The problem handed to `minimize_vrtos`: convex losses with `M`-Lipschitz derivatives, rows of squared norm at most `R`, convex penalties of both block
structures, every sample touching every block, step size at most `1 / (16 n² M R)` and `1 / (8 alpha)`. -/
structure VrtosDense (P : VrtosArgs ℝ n p) (pen1 : Fin P.blocks1.nb → (Fin p → ℝ) → ℝ) (pen2 : Fin P.blocks2.nb → (Fin p → ℝ) → ℝ)
    (f : ℝ → ℝ → ℝ) (M R : ℝ) : Prop where
  samples : 0 < n
  features : 0 < p
  penalty1 : IsBlockPenalty P.blocks1.ptr pen1
  penalty2 : IsBlockPenalty P.blocks2.ptr pen2
  prox1 : IsBlockProx pen1 P.prox1
  prox2 : IsBlockProx pen2 P.prox2
  deriv : ∀ t b, HasDerivAt (fun s => f s b) (P.deriv t b) t
  mono : ∀ b, Monotone fun t => P.deriv t b
  lip : ∀ s t b, |P.deriv s b - P.deriv t b| ≤ M * |s - t|
  rows : ∀ i, ∑ c : Fin p, P.A.ent i c ^ 2 ≤ R
  dense1 : ∀ i h, Touches P.A.indptr P.A.indices P.blocks1.ptr i h
  dense2 : ∀ i h, Touches P.A.indptr P.A.indices P.blocks2.ptr i h
  alpha : 0 ≤ P.alpha
  step_pos : 0 < P.stepSize
  step_lip : 16 * P.stepSize * (M * R) * n ^ 2 ≤ 1
  step_alpha : 8 * P.stepSize * P.alpha ≤ 1

/-- The objective. -/
noncomputable def vrtosObj (P : VrtosArgs ℝ n p) (hb : n = P.bSize) (pen1 : Fin P.blocks1.nb → (Fin p → ℝ) → ℝ)
    (pen2 : Fin P.blocks2.nb → (Fin p → ℝ) → ℝ) (f : ℝ → ℝ → ℝ) (y : Fin p → ℝ) : ℝ :=
  finiteSum (fun i (c : Fin p) => P.A.ent i c) (fun i => P.b (i.cast hb)) f P.alpha y + ((∑ h, pen1 h y) + ∑ h, pen2 h y)

section Dense
variable {P : VrtosArgs ℝ n p} {pen1 : Fin P.blocks1.nb → (Fin p → ℝ) → ℝ} {pen2 : Fin P.blocks2.nb → (Fin p → ℝ) → ℝ} {f : ℝ → ℝ → ℝ} {M R : ℝ}

theorem weight_dense {B : BlockMat} {A : CsrMat ℝ n p} (hB : GoodBlocks B p) (hn : 0 < n) (hd : ∀ i h, Touches A.indptr A.indices B.ptr i h) (c : Fin p) :
    blockWeight A hB c = 1 := by
  classical
  have : touchCount A B.ptr (hB.of c) = n := by
    unfold touchCount
    rw [Finset.filter_true_of_mem fun i _ => hd i _, Finset.card_univ, Fintype.card_fin]
  unfold blockWeight
  rw [this]
  exact div_self (by exact_mod_cast hn.ne')

/-- One prox half when every sample touches every block. -/
theorem half_dense {B : BlockMat} {hb : n = P.bSize} (hB : GoodBlocks B p) {S : Support n B.nb} (hok : SupportOk P.A hB S) (hn : 0 < n)
    (hd : ∀ i h, Touches P.A.indptr P.A.indices B.ptr i h) {pen : Fin B.nb → (Fin p → ℝ) → ℝ} (hpen : IsBlockPenalty B.ptr pen)
    {prox : SparseProx ℝ p} (hprox : IsBlockProx pen prox) (hstep : 0 ≤ P.stepSize) {st : VrtosState ℝ n p} {i : Fin n} {y x y' x' v : Fin p → ℝ} {hs : List ℕ}
    (hr : S.row i = some hs) (hh : VrtosHalf P hb hB S prox st i y x y' x' hs v) (w : Fin p → ℝ) :
    P.stepSize * (∑ h, pen h x') + ∑ c, (2 * st.z c - y c - P.stepSize * (1 / 2) * ((P.gi hb st.z i - st.mem i) * P.A.ent i c +
      (st.avg c + P.alpha * st.z c)) - x' c) * (w c - x' c) ≤ P.stepSize * ∑ h, pen h w := by
  classical
  obtain ⟨hs', hr', hnd, hlt, hmem⟩ := hok.row i
  rw [hr] at hr'
  obtain rfl := Option.some.inj hr'
  have hw := listed_lt_width hok hlt hmem
  obtain ⟨u, hu, hup⟩ := hprox _ (supWeights n S.bs) P.stepSize hs v (supWeights_nonneg n S.bs) hstep hnd (fun h hh => ⟨hlt h hh, hw h hh⟩)
  have hux : u = x' := by
    have := hh.prox
    rw [hu] at this
    exact Option.some.inj this
  subst hux
  have hiff := (isProx_listed_iff hB hpen (w := getD0 (supWeights n S.bs : Fin (supWidth S.bs) → ℝ)) (hs := hs)
    (fun h hh => by rw [getD0_lt _ (hw h hh)]; exact supWeights_nonneg n S.bs _) hstep v u).mp hup
  rw [sum_by_block hB, Finset.mul_sum, Finset.mul_sum, ← Finset.sum_add_distrib]
  refine Finset.sum_le_sum fun h _ => ?_
  have hin : h.val ∈ hs := (hmem h).mpr (hd i h)
  have h1 := hiff.2 h hin w
  have hW : getD0 (supWeights n S.bs : Fin (supWidth S.bs) → ℝ) h.val = 1 := by
    have := (hok.weight (K := ℝ) (hd i h)).2
    rw [rd_eq_getD0 _ (hw _ hin)] at this
    rw [Option.some.inj this]
    have e : touchCount P.A B.ptr h = n := by
      unfold touchCount
      rw [Finset.filter_true_of_mem fun i _ => hd i _, Finset.card_univ, Fintype.card_fin]
    rw [e]
    exact div_self (by exact_mod_cast hn.ne')
  rw [hW, one_mul, one_mul] at h1
  refine le_trans (le_of_eq ?_) h1
  congr 1
  refine Finset.sum_congr rfl fun c _ => ?_
  by_cases hc : hB.of c = h
  · rw [if_pos hc, if_pos hc, hh.near c (hd i _), weight_dense hB hn hd c, one_mul]
  · rw [if_neg hc, if_neg hc]

theorem totalProx_of {nb : ℕ} {pen : Fin nb → (Fin p → ℝ) → ℝ} {prox : SparseProx ℝ p} (h : IsBlockProx pen prox) : TotalProx nb prox := by
  intro m d step hs v h1 h2 h3 h4
  obtain ⟨u, hu, -⟩ := h m d step hs v h1 h2 h3 h4
  exact ⟨u, hu⟩

/-- What holds of a state from the warm-up step on, and of the next state. -/
structure VrtosClean (P : VrtosArgs ℝ n p) (st : VrtosState ℝ n p) : Prop where
  avg : ∀ c : Fin p, st.avg c = (∑ i, st.mem i * P.A.ent i c) / (n : ℝ)
  tmp : ∀ c, st.tmp c = 0

/-- One inner iteration, seen from the arrays. -/
structure VrtosMove (P : VrtosArgs ℝ n p) (hb : n = P.bSize) (pen1 : Fin P.blocks1.nb → (Fin p → ℝ) → ℝ) (pen2 : Fin P.blocks2.nb → (Fin p → ℝ) → ℝ)
    (st st' : VrtosState ℝ n p) (i : Fin n) : Prop where
  prox1 : ∀ w, P.stepSize * (∑ h, pen1 h st'.x1) + ∑ c, (2 * st.z c - st.y1 c - P.stepSize * (1 / 2) * ((P.gi hb st.z i - st.mem i) * P.A.ent i c +
    (st.avg c + P.alpha * st.z c)) - st'.x1 c) * (w c - st'.x1 c) ≤ P.stepSize * ∑ h, pen1 h w
  prox2 : ∀ w, P.stepSize * (∑ h, pen2 h st'.x2) + ∑ c, (2 * st.z c - st.y2 c - P.stepSize * (1 / 2) * ((P.gi hb st.z i - st.mem i) * P.A.ent i c +
    (st.avg c + P.alpha * st.z c)) - st'.x2 c) * (w c - st'.x2 c) ≤ P.stepSize * ∑ h, pen2 h w
  move1 : ∀ c, st'.y1 c = st.y1 c + (st'.x1 c - st.z c)
  move2 : ∀ c, st'.y2 c = st.y2 c + (st'.x2 c - st.z c)
  mean : ∀ c, st'.z c = (st'.y1 c + st'.y2 c) / 2
  mem : st'.mem = Function.update st.mem i (P.gi hb st.z i)

theorem VrtosDense.step (h : VrtosDense P pen1 pen2 f M R) (hP : P.Good) {S1 : Support n P.blocks1.nb} {S2 : Support n P.blocks2.nb}
    (hok1 : SupportOk P.A hP.blocks1 S1) (hok2 : SupportOk P.A hP.blocks2 S2) (st : VrtosState ℝ n p) (hst : VrtosClean P st) (i : Fin n) :
    ∃ st', vrtosStep P S1 S2 st i = some st' ∧ VrtosClean P st' ∧ VrtosMove P hP.size pen1 pen2 st st' i := by
  have hcov : Covered P i := fun c h1 h2 _ _ _ => ⟨⟨i, h1, h.dense1 i h1, le_refl _⟩, i, h2, h.dense2 i h2, le_refl _⟩
  obtain ⟨st', hs⟩ := vrtosStep_some P hP hok1 hok2 h.step_pos.le (totalProx_of h.prox1) (totalProx_of h.prox2) i hcov st
  obtain ⟨hs1, hs2, v1, v2, r1, r2, a1, a2, hz, hwd, hmem, havg, htmp⟩ := vrtosStep_spec P hP hok1 hok2 st st' (funext hst.tmp) i hs
  refine ⟨st', hs, ⟨fun c => ?_, fun c => by rw [htmp]⟩, ⟨half_dense hP.blocks1 hok1 h.samples h.dense1 h.penalty1 h.prox1 h.step_pos.le r1 a1,
    half_dense hP.blocks2 hok2 h.samples h.dense2 h.penalty2 h.prox2 h.step_pos.le r2 a2, fun c => a1.ynear c (h.dense1 i _), fun c => a2.ynear c (h.dense2 i _),
    fun c => ?_, hmem⟩⟩
  · rw [havg, hst.avg, hmem, ← add_div]
    congr 1
    rw [eq_comm, ← sub_eq_iff_eq_add', ← Finset.sum_sub_distrib, Finset.sum_eq_single i]
    · rw [Function.update_self]; ring
    · intro j _ hj
      rw [Function.update_of_ne hj]; ring
    · simp
  · rw [hz c, if_pos (Or.inl (h.dense1 i _)), (hok1.getD0_weight (h.dense1 i _)).2, (hok2.getD0_weight (h.dense2 i _)).2,
      weight_dense hP.blocks1 h.samples h.dense1, weight_dense hP.blocks2 h.samples h.dense2]
    ring

end Dense

/-! ### The visiting order -/

/-- The sample visited at time `t`, when pass `k` goes through `order k`. -/
def visit (hn : 0 < n) (order : ℕ → List ℕ) (t : ℕ) : Fin n :=
  if h : (order (t / n)).getD (t % n) 0 < n then ⟨(order (t / n)).getD (t % n) 0, h⟩ else ⟨0, hn⟩

theorem visit_eq (hn : 0 < n) {order : ℕ → List ℕ} (ho : ∀ k, (order k).Perm (List.range n)) (K k : ℕ) (hk : k < n) :
    ∃ h : k < (order K).length, (visit hn order (K * n + k)).val = (order K)[k] := by
  have hlen : (order K).length = n := by simpa using (ho K).length_eq
  have hk' : k < (order K).length := by omega
  refine ⟨hk', ?_⟩
  have e1 : (K * n + k) / n = K := by
    rw [mul_comm, Nat.mul_add_div hn, Nat.div_eq_of_lt hk, add_zero]
  have e2 : (K * n + k) % n = k := by rw [mul_comm, Nat.mul_add_mod, Nat.mod_eq_of_lt hk]
  have hlt : (order K)[k] < n := List.mem_range.mp ((ho K).subset (List.getElem_mem hk'))
  have hget : (order K).getD k 0 = (order K)[k] := by simp [hk']
  unfold visit
  simp only [e1, e2, hget, hlt, dif_pos]

theorem visit_recurrent (hn : 0 < n) {order : ℕ → List ℕ} (ho : ∀ k, (order k).Perm (List.range n)) : Recurrent (visit hn order) (2 * n) := by
  intro t ht j
  obtain ⟨K, hK⟩ : ∃ K, t / n = K + 1 := ⟨t / n - 1, by
    have : 1 ≤ t / n := (Nat.one_le_div_iff hn).mpr (by omega)
    omega⟩
  have h1 : n * (t / n) + t % n = t := Nat.div_add_mod t n
  have h2 : t % n < n := Nat.mod_lt t hn
  obtain ⟨k, hk, he⟩ := List.getElem_of_mem ((ho K).symm.subset (List.mem_range.mpr j.isLt))
  have hlen : (order K).length = n := by simpa using (ho K).length_eq
  obtain ⟨hk', hv⟩ := visit_eq hn ho K k (by omega)
  rw [hK, mul_add, mul_one, mul_comm n K] at h1
  refine ⟨K * n + k, by omega, by omega, Fin.ext ?_⟩
  rw [hv, he]

/-! ### The run -/

section Run
variable {P : VrtosArgs ℝ n p} {pen1 : Fin P.blocks1.nb → (Fin p → ℝ) → ℝ} {pen2 : Fin P.blocks2.nb → (Fin p → ℝ) → ℝ} {f : ℝ → ℝ → ℝ} {M R : ℝ}

theorem vrtosEpoch_trace (S1 : Support n P.blocks1.nb) (S2 : Support n P.blocks2.nb) (seq : ℕ → Fin n) (s : ℕ → VrtosState ℝ n p)
    (hs : ∀ t, vrtosStep P S1 S2 (s t) (seq t) = some (s (t + 1))) : ∀ (l : List ℕ) (t : ℕ), (∀ k (hk : k < l.length), (seq (t + k)).val = l[k]) →
      vrtosEpoch P S1 S2 (s t) l = some (s (t + l.length))
  | [], t, _ => rfl
  | i :: l, t, h => by
    have h0 := h 0 (by simp)
    simp only [add_zero, List.getElem_cons_zero] at h0
    have ih := vrtosEpoch_trace S1 S2 seq s hs l (t + 1) (fun k hk => by
      have := h (k + 1) (by simpa using hk)
      rw [show t + 1 + k = t + (k + 1) by omega, this]
      rfl)
    unfold vrtosEpoch at ih ⊢
    rw [show t + (i :: l).length = t + 1 + l.length by simp; omega, List.foldlM_cons, ← h0, hs t]
    exact ih

theorem vrtosLoop_trace (hn : 0 < n) (ho : ∀ k, (P.order k).Perm (List.range n)) (S1 : Support n P.blocks1.nb) (S2 : Support n P.blocks2.nb)
    (s : ℕ → VrtosState ℝ n p) (hs : ∀ t, vrtosStep P S1 S2 (s t) (visit hn P.order t) = some (s (t + 1))) : ∀ k it,
      vrtosLoop P S1 S2 k it (s (it * n)) = some (s ((it + k) * n))
  | 0, it => rfl
  | k + 1, it => by
    have hlen : (P.order it).length = n := by simpa using (ho it).length_eq
    have h1 := vrtosEpoch_trace S1 S2 _ s hs (P.order it) (it * n) (fun j hj => (visit_eq hn ho it j (by omega)).2)
    unfold vrtosLoop
    rw [h1, hlen]
    have := vrtosLoop_trace hn ho S1 S2 s hs k (it + 1)
    rw [add_mul, one_mul] at this
    rw [Option.bind_eq_bind, Option.bind_some, this, show it + 1 + k = it + (k + 1) by omega]

theorem VrtosDense.tableLoss (h : VrtosDense P pen1 pen2 f M R) (hb : n = P.bSize) :
    TableLoss (fun i (c : Fin p) => P.A.ent i c) (fun i t => f t (P.b (i.cast hb))) (fun i t => P.deriv t (P.b (i.cast hb))) M R where
  samples := h.samples
  below := fun j s t => convex_1d (fun t => h.deriv t _) (h.mono _) s t
  lip := fun j s t => h.lip s t _
  rows := h.rows

theorem sumPen_conv {B : BlockMat} {pen : Fin B.nb → (Fin p → ℝ) → ℝ} (hpen : IsBlockPenalty B.ptr pen) (x y : Fin p → ℝ) (t : ℝ) (h0 : 0 ≤ t) (h1 : t ≤ 1) :
    ∑ h, pen h ((1 - t) • x + t • y) ≤ (1 - t) * ∑ h, pen h x + t * ∑ h, pen h y := by
  rw [Finset.mul_sum, Finset.mul_sum, ← Finset.sum_add_distrib]
  exact Finset.sum_le_sum fun k _ => hpen.conv k x y t h0 h1

theorem sumPen_continuous {B : BlockMat} {pen : Fin B.nb → (Fin p → ℝ) → ℝ} (hpen : IsBlockPenalty B.ptr pen) : Continuous fun y => ∑ h, pen h y := by
  have := (convexOn_of_segments (φ := fun y => ∑ h, pen h y) (sumPen_conv hpen)).continuousOn isOpen_univ
  rwa [continuousOn_univ] at this

/-- Solutions and subgradients. -/
theorem VrtosDense.dual_iff (h : VrtosDense P pen1 pen2 f M R) (hb : n = P.bSize) (xs : Fin p → ℝ) :
    (∀ y, vrtosObj P hb pen1 pen2 f xs ≤ vrtosObj P hb pen1 pen2 f y) ↔
      ∃ s1 s2, TableDual (fun i (c : Fin p) => P.A.ent i c) (fun i t => P.deriv t (P.b (i.cast hb))) P.alpha (fun y => ∑ h, pen1 h y) (fun y => ∑ h, pen2 h y) xs s1 s2 := by
  have c1 := sumPen_conv h.penalty1
  have c2 := sumPen_conv h.penalty2
  constructor
  · intro hmin
    have ho := opt_of_min (fun i (c : Fin p) => P.A.ent i c) (fun i => P.b (i.cast hb)) f P.deriv h.deriv P.alpha
      (fun y => (∑ h, pen1 h y) + ∑ h, pen2 h y) (fun x y t h0 h1 => by nlinarith [c1 x y t h0 h1, c2 x y t h0 h1]) xs hmin
    obtain ⟨s, t, e1, e2, e3⟩ := subgrad_split (φ := fun y => ∑ h, pen1 h y) (ψ := fun y => ∑ h, pen2 h y) c1 c2 _ xs ho
    exact ⟨s, t, e2, e3, e1⟩
  · rintro ⟨s1, s2, hd⟩ y
    refine min_of_opt _ _ f P.deriv (fun s t b => convex_1d (fun t => h.deriv t b) (h.mono b) t s) P.alpha h.alpha
      (fun y => (∑ h, pen1 h y) + ∑ h, pen2 h y) xs (fun y => ?_) y
    have k1 := hd.sub1 y
    have k2 := hd.sub2 y
    have k3 : dot (finiteSumGrad (fun i (c : Fin p) => P.A.ent i c) (fun i => P.b (i.cast hb)) P.deriv P.alpha xs) (y - xs) =
        -((∑ c, s1 c * (y c - xs c)) + ∑ c, s2 c * (y c - xs c)) := by
      unfold dot
      rw [← Finset.sum_add_distrib, ← Finset.sum_neg_distrib]
      refine Finset.sum_congr rfl fun c _ => ?_
      have := hd.sum c
      have e : tableGrad (fun i (c : Fin p) => P.A.ent i c) (fun i t => P.deriv t (P.b (i.cast hb))) P.alpha xs c =
        finiteSumGrad (fun i (c : Fin p) => P.A.ent i c) (fun i => P.b (i.cast hb)) P.deriv P.alpha xs c := rfl
      rw [e] at this
      rw [show finiteSumGrad (fun i (c : Fin p) => P.A.ent i c) (fun i => P.b (i.cast hb)) P.deriv P.alpha xs c = -(s1 c + s2 c) by linarith, Pi.sub_apply]
      ring
    rw [k3]
    linarith

/-- **C113 (every visiting order).** When every sample touches every block of both structures and the step size is at most `1 / (16 n² M R)` and
`1 / (8 alpha)`, `minimize_vrtos` returns for every number of passes and what it returns converges to a minimiser of the objective, whatever the permutations
of the passes; so do the two prox points of the certificate, one of which is the caller's array. -/
theorem C113_any_order (P : VrtosArgs ℝ n p) (hP : P.Good) (pen1 : Fin P.blocks1.nb → (Fin p → ℝ) → ℝ) (pen2 : Fin P.blocks2.nb → (Fin p → ℝ) → ℝ)
    (f : ℝ → ℝ → ℝ) (M R : ℝ) (h : VrtosDense P pen1 pen2 f M R) (horder : ∀ k, (P.order k).Perm (List.range n))
    (hex : ∃ xs, ∀ y, vrtosObj P hP.size pen1 pen2 f xs ≤ vrtosObj P hP.size pen1 pen2 f y) :
    ∃ (r : ℕ → VrtosResult ℝ n p) (xs : Fin p → ℝ), (∀ K, minimizeVrtos { P with maxIter := K + 1 } = .ok (r K)) ∧
      (∀ y, vrtosObj P hP.size pen1 pen2 f xs ≤ vrtosObj P hP.size pen1 pen2 f y) ∧ Tendsto (fun K => (r K).x) atTop (nhds xs) ∧
      Tendsto (fun K => (r K).callerX0) atTop (nhds xs) ∧
      Tendsto (fun K => √(sqDist (r K).final.x1 (r K).final.z) + √(sqDist (r K).final.x2 (r K).final.z)) atTop (nhds 0) := by
  obtain ⟨S1, hS1, hok1⟩ := hP.support1
  obtain ⟨S2, hS2, hok2⟩ := hP.support2
  have hn := h.samples
  -- the states
  obtain ⟨s0, hs0, hcl0, hm0⟩ := h.step hP hok1 hok2 (vrtosInit P) ⟨fun c => by simp [vrtosInit], fun c => rfl⟩ ⟨0, hn⟩
  set seq := visit hn P.order with hseq
  let s : ℕ → VrtosState ℝ n p := fun t => Nat.rec s0 (fun t st => (vrtosStep P S1 S2 st (seq t)).getD st) t
  have hs1 : ∀ t, s (t + 1) = (vrtosStep P S1 S2 (s t) (seq t)).getD (s t) := fun t => rfl
  have hcl : ∀ t, VrtosClean P (s t) := by
    intro t
    induction t with
    | zero => exact hcl0
    | succ t ih =>
      obtain ⟨st', e1, e2, -⟩ := h.step hP hok1 hok2 (s t) ih (seq t)
      rw [hs1, e1]
      exact e2
  have hstep : ∀ t, vrtosStep P S1 S2 (s t) (seq t) = some (s (t + 1)) := by
    intro t
    obtain ⟨st', e1, -⟩ := h.step hP hok1 hok2 (s t) (hcl t) (seq t)
    rw [hs1, e1]; rfl
  have hall : ∀ t, VrtosMove P hP.size pen1 pen2 (s t) (s (t + 1)) (seq t) := fun t => by
    obtain ⟨st', e1, e2⟩ := h.step hP hok1 hok2 (s t) (hcl t) (seq t)
    rw [hstep t] at e1
    obtain rfl := Option.some.inj e1
    exact e2.2
  have hrun : TableRun (fun i (c : Fin p) => P.A.ent i c) (fun i t => P.deriv t (P.b (i.cast hP.size))) P.alpha P.stepSize (fun y => ∑ h, pen1 h y)
      (fun y => ∑ h, pen2 h y) seq (fun t => (s t).y1) (fun t => (s t).y2) (fun t => (s t).x1) (fun t => (s t).x2) (fun t => (s t).z) (fun t => (s t).mem)
      (fun t c => (P.gi hP.size (s t).z (seq t) - (s t).mem (seq t)) * P.A.ent (seq t) c + ((s t).avg c + P.alpha * (s t).z c)) := by
    refine ⟨fun t c => ?_, fun t => (hall t).prox1, fun t => (hall t).prox2, fun t => (hall t).move1, fun t => (hall t).move2, fun t c => ?_,
      fun t => (hall t).mem⟩
    · rw [(hcl t).avg c, ← add_assoc]; rfl
    · cases t with
      | zero => exact hm0.mean c
      | succ t => exact (hall t).mean c
  obtain ⟨xs0, hxs0⟩ := hex
  obtain ⟨d1, d2, hd⟩ := (h.dual_iff hP.size xs0).mp hxs0
  obtain ⟨xs, e1, e2, hd', l1, l2, l3⟩ := hrun.converges (h.tableLoss hP.size) h.step_pos h.alpha h.step_lip h.step_alpha (visit_recurrent hn horder)
    (sumPen_continuous h.penalty1) (sumPen_continuous h.penalty2) ⟨xs0, d1, d2, hd⟩
  have hsub : Tendsto (fun K => (K + 1) * n) atTop atTop :=
    tendsto_atTop_mono (fun K => by nlinarith : ∀ K, K ≤ (K + 1) * n) tendsto_id
  have m1 := fun c => (l1 c).comp hsub
  have m2 := fun c => (l2 c).comp hsub
  have m3 := fun c => (l3 c).comp hsub
  have sq0 : ∀ {x z : ℕ → Fin p → ℝ}, (∀ c, Tendsto (fun K => x K c) atTop (nhds (xs c))) → (∀ c, Tendsto (fun K => z K c) atTop (nhds (xs c))) →
      Tendsto (fun K => √(sqDist (x K) (z K))) atTop (nhds 0) := by
    intro x z hx hz
    have : Tendsto (fun K => √(∑ c, (x K c - z K c) ^ 2)) atTop (nhds (√(∑ c, (xs c - xs c) ^ 2))) :=
      (Real.continuous_sqrt.tendsto _).comp (tendsto_finsetSum _ fun c _ => ((hx c).sub (hz c)).pow 2)
    simp only [sub_self, ne_eq, OfNat.ofNat_ne_zero, not_false_eq_true, zero_pow, Finset.sum_const_zero, Real.sqrt_zero] at this
    exact this
  refine ⟨fun K => { x := (s ((K + 1) * n)).z, success := false, nit := K, callerX0 := (s ((K + 1) * n)).x1, final := s ((K + 1) * n) }, xs, fun K => ?_,
    (h.dual_iff hP.size xs).mpr ⟨e1, e2, hd'⟩, tendsto_pi_nhds.mpr m1, tendsto_pi_nhds.mpr m2, ?_⟩
  · have hb1 : S1.bs ≠ [] := by
      have h1 := hok1.weight (K := ℝ) (h.dense1 ⟨0, hn⟩ (hP.blocks1.of ⟨0, h.features⟩))
      intro hnil
      have h2 := hok1.count (hP.blocks1.of ⟨0, h.features⟩)
      rw [hnil] at h2
      simp at h2
      omega
    have hb2 : S2.bs ≠ [] := by
      have h1 := hok2.weight (K := ℝ) (h.dense2 ⟨0, hn⟩ (hP.blocks2.of ⟨0, h.features⟩))
      intro hnil
      have h2 := hok2.count (hP.blocks2.of ⟨0, h.features⟩)
      rw [hnil] at h2
      simp at h2
      omega
    have hl := vrtosLoop_trace hn horder S1 S2 s hstep (K + 1) 0
    simp only [zero_mul, zero_add] at hl
    have hw : vrtosEpoch P S1 S2 (vrtosInit P) [0] = some s0 := by
      unfold vrtosEpoch
      rw [List.foldlM_cons, show (0 : ℕ) = ((⟨0, hn⟩ : Fin n) : ℕ) from rfl, hs0]
      rfl
    have key : ∀ k, vrtosLoop { P with maxIter := K + 1 } S1 S2 k 0 s0 = vrtosLoop P S1 S2 k 0 s0 := by
      intro k
      rw [vrtosLoop_history, vrtosLoop_history]
      rfl
    unfold minimizeVrtos
    rw [if_neg (by simpa using hP.size), if_neg (by simpa using h.step_pos.le)]
    have a1 : supportMatrix ({ P with maxIter := K + 1 } : VrtosArgs ℝ n p).A.indices ({ P with maxIter := K + 1 } : VrtosArgs ℝ n p).A.indptr
      ({ P with maxIter := K + 1 } : VrtosArgs ℝ n p).rb1 ({ P with maxIter := K + 1 } : VrtosArgs ℝ n p).blocks1.nb = some S1 := hS1
    have a2 : supportMatrix ({ P with maxIter := K + 1 } : VrtosArgs ℝ n p).A.indices ({ P with maxIter := K + 1 } : VrtosArgs ℝ n p).A.indptr
      ({ P with maxIter := K + 1 } : VrtosArgs ℝ n p).rb2 ({ P with maxIter := K + 1 } : VrtosArgs ℝ n p).blocks2.nb = some S2 := hS2
    have a3 : vrtosEpoch { P with maxIter := K + 1 } S1 S2 (vrtosInit { P with maxIter := K + 1 }) [0] = some s0 := hw
    rw [a1, a2]
    refine (if_neg (by simp [hb1, hb2])).trans ?_
    rw [a3]
    change (orFault (vrtosLoop { P with maxIter := K + 1 } S1 S2 (K + 1) 0 s0) >>= _) = _
    rw [(key (K + 1)).trans hl]
    rfl
  · have := (sq0 m2 m1).add (sq0 m3 m1)
    rwa [add_zero] at this

end Run

/-! A concrete problem: samples `(1, 1)` and `(1, -1)` with labels 3 and 1, squared loss, penalties `|x|/8` and `3|x|/8`, alternating orders; the solution is
`(3/2, 1/2)`. -/

/-- The data of the example. -/
noncomputable def exA2 : CsrMat ℝ 2 2 := { nnz := 4, data := ![1, 1, 1, -1], indices := ![0, 1, 0, 1], indptr := ![0, 2, 4] }

theorem exA2_good : GoodCsr 2 exA2.indptr exA2.indices := by
  refine ⟨?_, ?_, ?_⟩
  · intro i; fin_cases i <;> simp [exA2]
  · intro i; fin_cases i <;> simp [exA2]
  · intro i; change Fin 4 at i; fin_cases i <;> simp [exA2]

theorem exA2_nodup : NoDuplicates exA2.indptr exA2.indices := by
  intro i j k h1 h2 h3 h4 h
  change Fin 4 at j; change Fin 4 at k
  fin_cases i <;> fin_cases j <;> fin_cases k <;> simp [exA2] at h1 h2 h3 h4 h ⊢

theorem exA2_ent (i c : Fin 2) : exA2.ent i c = if i = 1 ∧ c = 1 then -1 else 1 := by
  unfold CsrMat.ent csrEntry
  show (∑ j : Fin 4, _) = _
  rw [Fin.sum_univ_four]
  fin_cases i <;> fin_cases c <;> simp [exA2]

/-- Arguments of the example. -/
noncomputable def exVOrder : VrtosArgs ℝ 2 2 :=
  { A := exA2, bSize := 2, b := ![3, 1], deriv := fun t b => t - b, alpha := 0, x0 := ![1, 1], stepSize := 1 / 128,
    blocks1 := BlockMat.eye 2, blocks2 := BlockMat.eye 2, prox1 := L1Norm.sparse (1 / 8), prox2 := L1Norm.sparse (3 / 8), maxIter := 5, tol := 0,
    order := fun k => if k % 2 = 0 then [0, 1] else [1, 0] }

theorem exVOrder_good : exVOrder.Good := ⟨exA2_good, exA2_nodup, goodBlocks_eye 2, goodBlocks_eye 2, rfl⟩

theorem exA2_dense (i : Fin 2) (h : Fin (BlockMat.eye 2).nb) : Touches exA2.indptr exA2.indices (BlockMat.eye 2).ptr i h := by
  change Fin 2 at h
  refine ⟨h.val, ⟨(⟨2 * i.val + h.val, by have := i.isLt; have := h.isLt; omega⟩ : Fin 4), ?_⟩, le_refl _, Nat.lt_succ_self _⟩
  fin_cases i <;> fin_cases h <;> simp [exA2]

theorem exVOrder_dense : VrtosDense exVOrder (l1Pen (1 / 8)) (l1Pen (3 / 8)) (fun t b => (t - b) ^ 2 / 2) 1 2 := by
  refine ⟨by norm_num, by norm_num, l1Pen_ok _ (by norm_num), l1Pen_ok _ (by norm_num), l1_isBlockProx _ (by norm_num), l1_isBlockProx _ (by norm_num),
    fun t b => ?_, fun b s t h => ?_, fun s t b => ?_, fun i => ?_, exA2_dense, exA2_dense, le_refl _, by norm_num [exVOrder], by norm_num [exVOrder],
    by norm_num [exVOrder]⟩
  · have := ((hasDerivAt_id t).sub_const b).fun_pow 2 |>.div_const 2
    simpa [exVOrder] using this
  · simpa [exVOrder] using h
  · simp [exVOrder]
  · show ∑ c : Fin 2, exA2.ent i c ^ 2 ≤ 2
    simp only [exA2_ent, Fin.sum_univ_two]
    fin_cases i <;> norm_num

theorem exVOrder_obj (y : Fin 2 → ℝ) : vrtosObj exVOrder exVOrder_good.size (l1Pen (1 / 8)) (l1Pen (3 / 8)) (fun t b => (t - b) ^ 2 / 2) y =
    ((y 0 + y 1 - 3) ^ 2 / 2 + (y 0 - y 1 - 1) ^ 2 / 2) / 2 + (|y 0| + |y 1|) / 2 := by
  have e1 : ∀ b : ℝ, (∑ h, l1Pen (p := 2) b h y) = b * |y 0| + b * |y 1| := by
    intro b
    exact Fin.sum_univ_two _
  have e2 : vrtosObj exVOrder exVOrder_good.size (l1Pen (1 / 8)) (l1Pen (3 / 8)) (fun t b => (t - b) ^ 2 / 2) y =
    finiteSum (fun i (c : Fin 2) => exA2.ent i c) ![3, 1] (fun t b => (t - b) ^ 2 / 2) 0 y + ((∑ h, l1Pen (p := 2) (1 / 8) h y) + ∑ h, l1Pen (p := 2) (3 / 8) h y) := rfl
  rw [e2, e1, e1]
  unfold finiteSum
  simp only [exA2_ent, Fin.sum_univ_two]
  norm_num
  ring

/-- For the example, what the solver returns tends to `(3/2, 1/2)`. -/
example : ∃ r : ℕ → VrtosResult ℝ 2 2, (∀ K, minimizeVrtos { exVOrder with maxIter := K + 1 } = .ok (r K)) ∧
    Tendsto (fun K => (r K).x) atTop (nhds ![3 / 2, 1 / 2]) := by
  have hmin : ∀ y, vrtosObj exVOrder exVOrder_good.size (l1Pen (1 / 8)) (l1Pen (3 / 8)) (fun t b => (t - b) ^ 2 / 2) ![3 / 2, 1 / 2] +
      ((y 0 - 3 / 2) ^ 2 + (y 1 - 1 / 2) ^ 2) / 2 ≤
      vrtosObj exVOrder exVOrder_good.size (l1Pen (1 / 8)) (l1Pen (3 / 8)) (fun t b => (t - b) ^ 2 / 2) y := by
    intro y
    rw [exVOrder_obj, exVOrder_obj]
    norm_num
    nlinarith [le_abs_self (y 0), le_abs_self (y 1)]
  obtain ⟨r, xs, h1, h2, h3, -⟩ := C113_any_order exVOrder exVOrder_good _ _ _ 1 2 exVOrder_dense
    (fun k => by
      show (if k % 2 = 0 then [0, 1] else [1, 0] : List ℕ).Perm _
      split <;> decide)
    ⟨![3 / 2, 1 / 2], fun y => by nlinarith [hmin y, sq_nonneg (y 0 - 3 / 2), sq_nonneg (y 1 - 1 / 2)]⟩
  have h4 := (hmin xs).trans (h2 ![3 / 2, 1 / 2])
  have h5 : xs 0 = 3 / 2 := by nlinarith [sq_nonneg (xs 0 - 3 / 2), sq_nonneg (xs 1 - 1 / 2)]
  have h6 : xs 1 = 1 / 2 := by nlinarith [sq_nonneg (xs 0 - 3 / 2), sq_nonneg (xs 1 - 1 / 2)]
  have : xs = ![3 / 2, 1 / 2] := by
    funext c; fin_cases c
    · exact h5
    · exact h6
  exact ⟨r, h1, this ▸ h3⟩

end Copt
