import Verif.Props.SagaFixed
import Verif.Props.Penalty
import Verif.Model.BlockPenalty
import Mathlib.Analysis.InnerProductSpace.PiL2

/-! # The penalties of copt/penalty.py meet the requirements of the variance-reduced methods -/

set_option linter.unusedSectionVars false

namespace Copt

open Spec

section Common
variable {K : Type} [Field K] [LinearOrder K] [IsStrictOrderedRing K] {p : ℕ}

/-- Proximal points only move listed blocks. -/
theorem IsBlockProx.local_of {B : BlockMat} (hB : GoodBlocks B p) {pen : Fin B.nb → (Fin p → K) → K} (hpen : IsBlockPenalty B.ptr pen)
    {prox : SparseProx K p} (h : IsBlockProx pen prox) {m : ℕ} {d : Fin m → K} {step : K} {hs : List ℕ} {v u : Fin p → K} (hd : ∀ h, 0 ≤ d h)
    (hstep : 0 ≤ step) (hnd : hs.Nodup) (hlt : ∀ h ∈ hs, h < B.nb ∧ h < m) (hu : prox m d step hs v = some u) (c : Fin p)
    (hc : (hB.of c).val ∉ hs) : u c = v c := by
  obtain ⟨u', hu', hp⟩ := h m d step hs v hd hstep hnd hlt
  rw [hu] at hu'
  obtain rfl := Option.some.inj hu'
  exact ((isProx_listed_iff hB hpen (fun h hh => by rw [getD0_lt _ (hlt h hh).2]; exact hd _) hstep v u).mp hp).1 c hc

/-- Sum over a list of distinct block numbers. -/
theorem sum_listed {nb : ℕ} (g : ℕ → K) : ∀ (hs : List ℕ), hs.Nodup → (∀ h ∈ hs, h < nb) →
    (hs.map g).sum = ∑ h : Fin nb, if h.val ∈ hs then g h.val else 0 := by
  intro hs
  induction hs with
  | nil => intro _ _; simp
  | cons a hs ih =>
    intro hnd hlt
    have hnd' := List.nodup_cons.mp hnd
    have ha := hlt a (by simp)
    rw [List.map_cons, List.sum_cons, ih hnd'.2 (fun h hh => hlt h (by simp [hh]))]
    have h1 : ∀ h : Fin nb, (if h.val ∈ a :: hs then g h.val else 0) =
        (if h = ⟨a, ha⟩ then g a else 0) + if h.val ∈ hs then g h.val else 0 := by
      intro h
      by_cases e : h.val = a
      · have hn : h.val ∉ hs := by rw [e]; exact hnd'.1
        rw [if_pos (by rw [e]; simp), if_pos (Fin.ext e), if_neg hn, e, add_zero]
      · rw [if_neg (show ¬h = ⟨a, ha⟩ from fun hh => e (by rw [hh])), zero_add]
        by_cases hm : h.val ∈ hs
        · rw [if_pos hm, if_pos (by simp [hm])]
        · rw [if_neg hm, if_neg (by simp [hm, e])]
    rw [Finset.sum_congr rfl fun h _ => h1 h, Finset.sum_add_distrib, Finset.sum_ite_eq']
    simp

theorem isProx_congr {pen pen' : (Fin p → K) → K} {s s' : K} {v u : Fin p → K} (h : ∀ y, s * pen y = s' * pen' y) (hp : IsProx pen s v u) :
    IsProx pen' s' v u := by
  refine ⟨trivial, fun y hy hne => ?_⟩
  have := hp.2 y hy hne
  simp only [h] at this
  exact this

/-! ### No penalty -/

theorem noPen (B : BlockMat) : IsBlockPenalty B.ptr (fun (_ : Fin B.nb) (_ : Fin p → K) => (0 : K)) := ⟨fun _ _ _ _ => rfl, fun _ _ _ _ _ _ => by simp⟩

theorem noProx_isBlockProx (nb : ℕ) : IsBlockProx (fun (_ : Fin nb) (_ : Fin p → K) => (0 : K)) noProx := by
  intro m d step hs v _ _ _ _
  refine ⟨v, rfl, isProx_of_subgrad fun y => ?_⟩
  unfold listedPen dot
  simp

/-! ### l1 norm -/

/-- `alpha |y_h|`. -/
def l1Pen (alpha : K) : Fin (BlockMat.eye p).nb → (Fin p → K) → K := fun h y => alpha * |y h|

theorem l1Pen_ok (alpha : K) (ha : 0 ≤ alpha) : IsBlockPenalty (BlockMat.eye p).ptr (l1Pen alpha) := by
  refine ⟨fun h x y hxy => ?_, fun h x y t h0 h1 => ?_⟩
  · unfold l1Pen
    rw [hxy h ⟨le_refl h.val, Nat.lt_succ_self h.val⟩]
  · unfold l1Pen
    have h2 : |((1 - t) • x + t • y) h| ≤ (1 - t) * |x h| + t * |y h| := by
      show |(1 - t) * x h + t * y h| ≤ _
      refine (abs_add_le _ _).trans ?_
      rw [abs_mul, abs_mul, abs_of_nonneg h0, abs_of_nonneg (by linarith : (0 : K) ≤ 1 - t)]
    nlinarith

/-- The l1 routine is the proximal operator the methods need. -/
theorem l1_isBlockProx (alpha : K) (ha : 0 ≤ alpha) : IsBlockProx (l1Pen (p := p) alpha) (L1Norm.sparse alpha) := by
  intro m d step hs v hd hstep hnd hlt
  have hlt' : ∀ h ∈ hs, h < p ∧ h < m := hlt
  obtain ⟨u, hu, h1, h2⟩ := C11_l1_kernel alpha step d v hs hnd hlt' ha hstep hd
  refine ⟨u, hu, trivial, fun y _ hne => ?_⟩
  have hval : ∀ z : Fin p → K, step * listedPen (l1Pen (p := p) alpha) (getD0 d) hs z + sqDist z v / 2 =
      ∑ c : Fin p, ((if c.val ∈ hs then alpha * getD0 d c.val * step * |z c| else 0) + (z c - v c) ^ 2 / 2) := by
    intro z
    rw [Finset.sum_add_distrib]
    unfold listedPen sqDist
    rw [Finset.mul_sum, Finset.sum_div]
    congr 1
    refine Finset.sum_congr rfl fun c _ => ?_
    unfold l1Pen
    by_cases hc : c.val ∈ hs
    · have e1 : (if Fin.val (n := (BlockMat.eye p).nb) c ∈ hs then getD0 d (Fin.val (n := (BlockMat.eye p).nb) c) * (alpha * |z c|) else 0) =
          getD0 d c.val * (alpha * |z c|) := if_pos hc
      refine (congrArg (step * ·) e1).trans ?_
      refine Eq.trans ?_ (if_pos hc).symm
      ring
    · have e1 : (if Fin.val (n := (BlockMat.eye p).nb) c ∈ hs then getD0 d (Fin.val (n := (BlockMat.eye p).nb) c) * (alpha * |z c|) else 0) =
          0 := if_neg hc
      refine (congrArg (step * ·) e1).trans ?_
      refine Eq.trans ?_ (if_neg hc).symm
      ring
  show step * listedPen (l1Pen (p := p) alpha) (getD0 d) hs u + sqDist u v / 2 < step * listedPen (l1Pen (p := p) alpha) (getD0 d) hs y + sqDist y v / 2
  rw [hval, hval]
  have hpt : ∀ c : Fin p, u c ≠ y c → (if c.val ∈ hs then alpha * getD0 d c.val * step * |u c| else 0) + (u c - v c) ^ 2 / 2 <
      (if c.val ∈ hs then alpha * getD0 d c.val * step * |y c| else 0) + (y c - v c) ^ 2 / 2 := by
    intro c hc
    by_cases hm : c.val ∈ hs
    · rw [if_pos hm, if_pos hm, getD0_lt d (hlt' _ hm).2]
      exact (h1 c hm).2 (y c) trivial (fun h => hc h.symm)
    · rw [if_neg hm, if_neg hm, h2 c hm, sub_self]
      have : 0 < (y c - v c) ^ 2 := by
        refine sq_pos_of_ne_zero (sub_ne_zero.mpr fun h => hc ?_)
        rw [h2 c hm, h]
      simp only [zero_add]
      rw [zero_pow two_ne_zero, zero_div]
      exact half_pos this
  obtain ⟨c, hc⟩ : ∃ c, u c ≠ y c := by
    by_contra hcon
    push Not at hcon
    exact hne (funext fun c => (hcon c).symm)
  refine Finset.sum_lt_sum (fun c _ => ?_) ⟨c, Finset.mem_univ _, hpt c hc⟩
  by_cases h : u c = y c
  · rw [h]
  · exact (hpt c h).le

/-! ### Fused lasso, either half -/

theorem pairMat_ok {B : PairBlocks p} (hI : PairInv B) : GoodBlocks B.mat p := by
  refine ⟨⟨?_, ?_, fun h => ?_⟩, rfl, fun _ => rfl⟩
  · exact hI.first
  · exact hI.last
  · have := hI.mono h.val h.isLt
    show B.start h.val ≤ B.start (h.val + 1)
    omega

/-- `alpha |y_j - y_(j+1)|` for a penalised pair, 0 for other blocks. -/
def fusedPen (alpha : K) (B : PairBlocks p) : Fin B.mat.nb → (Fin p → K) → K := fun h y =>
  if B.active h.val then alpha * adjDiff y (B.start h.val) else 0

theorem fusedPen_ok (alpha : K) (ha : 0 ≤ alpha) {B : PairBlocks p} (hI : PairInv B) : IsBlockPenalty B.mat.ptr (fusedPen alpha B) := by
  refine ⟨fun h x y hxy => ?_, fun h x y t h0 h1 => ?_⟩
  · unfold fusedPen
    by_cases hact : B.active h.val
    · rw [if_pos hact, if_pos hact]
      congr 1
      unfold adjDiff
      have hsz := (hI.size h.val h.isLt).resolve_right (by simp [hact])
      by_cases hlt : B.start h.val + 1 < p
      · rw [dif_pos hlt, dif_pos hlt]
        have hm : ∀ c : ℕ, B.start h.val ≤ c → c < B.start h.val + 2 → InBlock B.mat.ptr h c :=
          fun c h1 h2 => ⟨h1, by show c < B.start (h.val + 1); omega⟩
        rw [hxy ⟨B.start h.val, by omega⟩ (hm _ le_rfl (by simp)), hxy ⟨B.start h.val + 1, hlt⟩ (hm _ (by simp) (by simp))]
      · rw [dif_neg hlt, dif_neg hlt]
    · rw [if_neg hact, if_neg hact]
  · unfold fusedPen
    by_cases hact : B.active h.val
    · simp only [if_pos hact]
      have h2 : adjDiff ((1 - t) • x + t • y) (B.start h.val) ≤ (1 - t) * adjDiff x (B.start h.val) + t * adjDiff y (B.start h.val) := by
        unfold adjDiff
        by_cases hlt : B.start h.val + 1 < p
        · simp only [dif_pos hlt]
          set i : Fin p := ⟨B.start h.val, by omega⟩
          set j : Fin p := ⟨B.start h.val + 1, hlt⟩
          show |((1 - t) * x i + t * y i) - ((1 - t) * x j + t * y j)| ≤ _
          rw [show ((1 - t) * x i + t * y i) - ((1 - t) * x j + t * y j) = (1 - t) * (x i - x j) + t * (y i - y j) by ring]
          refine (abs_add_le _ _).trans ?_
          rw [abs_mul, abs_mul, abs_of_nonneg h0, abs_of_nonneg (by linarith : (0 : K) ≤ 1 - t)]
        · simp only [dif_neg hlt]; simp
      nlinarith
    · simp only [if_neg hact]; simp

theorem fused_isBlockProx (alpha : K) (ha : 0 ≤ alpha) {B : PairBlocks p} (hI : PairInv B) :
    IsBlockProx (fusedPen alpha B) (FusedLasso.sparse alpha B) := by
  intro m d step hs v hd hstep hnd hlt
  obtain ⟨u, hu, hp, -⟩ := pairKernel_isProx hI alpha step ha hstep d hd hs v hnd hlt
  refine ⟨u, hu, isProx_congr (fun y => ?_) hp⟩
  unfold pairPen listedPen
  rw [one_mul, List.map_map]
  have h1 : ∀ l : List ℕ, ((l.filter B.active).map ((fun e => e.1 * adjDiff y e.2) ∘ fun h => (step * getD0 d h * alpha, B.start h))).sum =
      (l.map fun h => step * (getD0 d h * if B.active h then alpha * adjDiff y (B.start h) else 0)).sum := by
    intro l
    induction l with
    | nil => rfl
    | cons a l ih =>
      by_cases hact : B.active a
      · rw [List.filter_cons_of_pos hact, List.map_cons, List.map_cons, List.sum_cons, List.sum_cons, ih, if_pos hact]
        simp only [Function.comp]
        ring
      · rw [List.filter_cons_of_neg hact, List.map_cons, List.sum_cons, ih, if_neg hact]
        simp
  rw [h1, sum_listed (nb := B.mat.nb) _ hs hnd fun h hh => (hlt h hh).1, Finset.mul_sum]
  refine Finset.sum_congr rfl fun h _ => ?_
  unfold fusedPen
  by_cases hm : h.val ∈ hs
  · rw [if_pos hm, if_pos hm]
  · rw [if_neg hm, if_neg hm, mul_zero]

end Common

/-! ### Group lasso -/

section Group
variable {p : ℕ}

theorem groupMat_ok {G : List (List ℕ)} {B : BlockState p} (hI : BInv G G B) (hfp : B.fp = p) : GoodBlocks B.mat p := by
  have hbp : B.bp ≤ p := hI.hbp.trans hI.hfp
  refine ⟨⟨?_, ?_, fun h => ?_⟩, rfl, fun _ => rfl⟩
  · exact hI.h0
  · show getD0 B.indptr B.bp = p
    rw [hI.hend, hfp]
  · exact (hI.hmono h.val h.isLt).le

/-- `alpha ‖y_block‖` for a penalised block, 0 for the others. -/
noncomputable def groupBlockPen (alpha : ℝ) (B : BlockState p) : Fin B.mat.nb → (Fin p → ℝ) → ℝ := fun h y =>
  if 0 < getD0 B.data (getD0 B.indptr h.val) then alpha * blockNorm (featSet (B.blk h.val)) y else 0

theorem blockNorm_conv (g : Finset (Fin p)) (x y : Fin p → ℝ) (t : ℝ) (h0 : 0 ≤ t) (h1 : t ≤ 1) :
    blockNorm g ((1 - t) • x + t • y) ≤ (1 - t) * blockNorm g x + t * blockNorm g y := by
  have key : ∀ z : Fin p → ℝ, blockNorm g z = ‖(WithLp.toLp 2 fun i : g => z i : EuclideanSpace ℝ g)‖ := by
    intro z
    unfold blockNorm
    rw [EuclideanSpace.norm_eq]
    congr 1
    simp only [Real.norm_eq_abs, sq_abs]
    exact (Finset.sum_coe_sort g fun i => z i ^ 2).symm
  rw [key, key, key]
  have e : (WithLp.toLp 2 fun i : g => ((1 - t) • x + t • y) i : EuclideanSpace ℝ g) =
      (1 - t) • (WithLp.toLp 2 fun i : g => x i : EuclideanSpace ℝ g) + t • (WithLp.toLp 2 fun i : g => y i : EuclideanSpace ℝ g) := by
    ext i; simp
  rw [e]
  refine (norm_add_le _ _).trans ?_
  rw [norm_smul, norm_smul, Real.norm_eq_abs, Real.norm_eq_abs, abs_of_nonneg h0, abs_of_nonneg (by linarith : (0 : ℝ) ≤ 1 - t)]

theorem groupBlockPen_ok (alpha : ℝ) (ha : 0 ≤ alpha) {G : List (List ℕ)} {B : BlockState p} (hI : BInv G G B) :
    IsBlockPenalty B.mat.ptr (groupBlockPen alpha B) := by
  refine ⟨fun h x y hxy => ?_, fun h x y t h0 h1 => ?_⟩
  · unfold groupBlockPen
    congr 1
    congr 1
    unfold blockNorm
    congr 1
    refine Finset.sum_congr rfl fun c hc => ?_
    rw [hxy c]
    have := mem_featSet.mp hc
    have := List.mem_range'_1.mp this
    have hm := hI.hmono h.val h.isLt
    exact ⟨this.1, by show c.val < getD0 B.indptr (h.val + 1); omega⟩
  · unfold groupBlockPen
    by_cases hact : 0 < getD0 B.data (getD0 B.indptr h.val)
    · simp only [if_pos hact]
      have := mul_le_mul_of_nonneg_left (blockNorm_conv (featSet (B.blk h.val)) x y t h0 h1) ha
      linarith
    · simp only [if_neg hact]; simp

theorem group_isBlockProx (alpha : ℝ) (ha : 0 ≤ alpha) {G : List (List ℕ)} (hG : GoodGroups G) (hn : ∀ g ∈ G, ∀ i ∈ g, i < p) {B : BlockState p}
    (hB : GroupL1.blocks G p = some B) : IsBlockProx (groupBlockPen alpha B) (GroupL1.sparse alpha B) := by
  intro m d step hs v hd hstep hnd hlt
  obtain ⟨B', hB', hk⟩ := C14_kernel_exact G hG hn alpha step ha hstep d hd
  rw [hB] at hB'
  obtain rfl := Option.some.inj hB'
  obtain ⟨u, hu, hp, -⟩ := hk hs v hnd hlt
  refine ⟨u, hu, isProx_congr (fun y => ?_) hp⟩
  unfold groupPen rowGroups listedPen
  rw [one_mul, List.map_map]
  have h1 : ∀ l : List ℕ, ((l.filter fun h => decide (0 < getD0 B.data (getD0 B.indptr h))).map ((fun wg : ℝ × Finset (Fin p) => wg.1 * blockNorm wg.2 y) ∘
      fun h => (alpha * (step * getD0 d h), featSet (B.blk h)))).sum =
      (l.map fun h => step * (getD0 d h * if 0 < getD0 B.data (getD0 B.indptr h) then alpha * blockNorm (featSet (B.blk h)) y else 0)).sum := by
    intro l
    induction l with
    | nil => rfl
    | cons a l ih =>
      by_cases hact : 0 < getD0 B.data (getD0 B.indptr a)
      · rw [List.filter_cons_of_pos (by simpa using hact), List.map_cons, List.map_cons, List.sum_cons, List.sum_cons, ih, if_pos hact]
        simp only [Function.comp]
        ring
      · rw [List.filter_cons_of_neg (by simpa using hact), List.map_cons, List.sum_cons, ih, if_neg hact]
        simp
  rw [h1, sum_listed (nb := B.mat.nb) _ hs hnd fun h hh => (hlt h hh).1, Finset.mul_sum]
  refine Finset.sum_congr rfl fun h _ => ?_
  unfold groupBlockPen
  by_cases hm : h.val ∈ hs
  · rw [if_pos hm, if_pos hm]
  · rw [if_neg hm, if_neg hm, mul_zero]

end Group

end Copt

namespace Copt

open Spec

section Safe
variable {K : Type} [Field K] [LinearOrder K] [IsStrictOrderedRing K] {n p : ℕ}

/-- C56, use of the support matrix: every inner step of `minimize_saga` on valid sample numbers stays within all arrays. -/
theorem C56_saga_in_bounds (P : VRArgs K n p) (hP : P.Good) (S : Support n P.blocks.nb) (hS : P.support = some S)
    (pen : Fin P.blocks.nb → (Fin p → K) → K) (hprox : IsBlockProx pen P.prox) (step : K) (hstep : 0 ≤ step) (idx : List ℕ) (hidx : ∀ i ∈ idx, i < n) :
    ∃ st, sagaEpoch P S step (sagaInit P) idx = some st := by
  obtain ⟨S', hS', hok⟩ := hP.support
  rw [hS] at hS'
  obtain rfl := Option.some.inj hS'
  induction idx using List.reverseRecOn with
  | nil => exact ⟨_, rfl⟩
  | append_singleton idx k ih =>
    obtain ⟨s, hs⟩ := ih fun i hi => hidx i (by simp [hi])
    have hk := hidx k (by simp)
    have hM := sagaMem P hP hS step idx s hs
    obtain ⟨hsl, hr, hspec⟩ := sagaStep_spec P hP hok step s hM.tmp ⟨k, hk⟩
    obtain ⟨hs', hr', hnd, hlt, hmemb⟩ := hok.row ⟨k, hk⟩
    rw [hr] at hr'
    obtain rfl := Option.some.inj hr'
    have hw : ∀ h ∈ hsl, h < supWidth S.bs := by
      intro h hh
      have := (hok.weight ((hmemb ⟨h, hlt h hh⟩).mp hh)).2
      by_contra hc
      rw [show rd (supWeights n S.bs : Fin (supWidth S.bs) → K) h = none from dif_neg hc] at this
      simp at this
    obtain ⟨u, hu, -⟩ := hprox _ (supWeights n S.bs) step hsl (sagaMid P hP step s ⟨k, hk⟩) (supWeights_nonneg n S.bs) hstep hnd
      (fun h hh => ⟨hlt h hh, hw h hh⟩)
    rw [hu] at hspec
    simp only [Option.bind_some] at hspec
    rw [sagaEpoch_append, hs]
    simp only [Option.bind_some]
    unfold sagaEpoch
    rw [List.foldlM_cons, hspec]
    exact ⟨_, rfl⟩

end Safe

section Ends
variable {n p : ℕ}

/-- C59 for the l1 norm of copt/penalty.py: when every feature is stored by some sample, the states no sample moves are exactly the solutions of
`(1/n) ∑ f_i + alpha/2 ‖x‖² + beta ‖x‖₁`. -/
theorem C59_l1_fixed_iff (A : CsrMat ℝ n p) (hA : GoodCsr p A.indptr A.indices) (hA2 : NoDuplicates A.indptr A.indices) (b : Fin n → ℝ)
    (f f' : ℝ → ℝ → ℝ) (hf : ∀ t b, HasDerivAt (fun s => f s b) (f' t b) t) (hconv : ∀ s t b, f t b + f' t b * (s - t) ≤ f s b)
    (alpha beta step : ℝ) (halpha : 0 ≤ alpha) (hbeta : 0 ≤ beta) (hstep : 0 < step) (hall : ∀ c : Fin p, ∃ i, StoresAt A.indptr A.indices i c)
    (x0 : Fin p → ℝ) (k : ℕ) (tol : ℝ) (order : ℕ → List ℕ) :
    let P : VRArgs ℝ n p :=
      { A := A, b := b, deriv := f', alpha := alpha, x0 := x0, stepSize := some step, blocks := BlockMat.eye p,
        prox := L1Norm.sparse beta, maxIter := k, tol := tol, order := order }
    ∃ S, P.support = some S ∧ ∀ st : SagaState ℝ n p, (∀ c : Fin p, st.avg c = (∑ i, st.mem i * A.ent i c) / (n : ℝ)) → (∀ c, st.tmp c = 0) →
      (∀ i : Fin n, st.mem i = f' (∑ c : Fin p, A.ent i c * st.x c) (b i)) →
      ((∀ i : Fin n, sagaStep P S step st i = some st) ↔
        ∀ y, finiteSum (fun i (c : Fin p) => A.ent i c) b f alpha st.x + beta * norm1 st.x ≤
          finiteSum (fun i (c : Fin p) => A.ent i c) b f alpha y + beta * norm1 y) := by
  intro P
  have hP : P.Good := ⟨hA, hA2, goodBlocks_eye p⟩
  obtain ⟨S, hS, -⟩ := hP.support
  have hsum : ∀ y : Fin p → ℝ, ∑ h, l1Pen (p := p) beta h y = beta * norm1 y := by
    intro y
    unfold norm1
    rw [Finset.mul_sum]
    rfl
  refine ⟨S, hS, fun st havg htmp hmem => ⟨fun hfix y => ?_, fun hmin i => ?_⟩⟩
  · have := C59_fixed_minimiser P hP S hS (l1Pen beta) (l1Pen_ok beta hbeta) (l1_isBlockProx beta hbeta) f hconv halpha step hstep st havg htmp hmem
      (fun h => by
        obtain ⟨i, hi⟩ := hall h
        exact ⟨i, h.val, hi, le_refl h.val, Nat.lt_succ_self h.val⟩)
      (fun i st' hst' => by rw [hfix i] at hst'; rw [← Option.some.inj hst']) y
    rw [hsum, hsum] at this
    exact this
  · refine C59_minimiser_fixed P hP S hS (l1Pen beta) (l1Pen_ok beta hbeta) (l1_isBlockProx beta hbeta) f hf step hstep st havg htmp hmem (fun y => ?_) i
    rw [hsum, hsum]
    exact hmin y

/-- C59 for the group lasso of copt/penalty.py. -/
theorem C59_group_fixed (A : CsrMat ℝ n p) (hA : GoodCsr p A.indptr A.indices) (hA2 : NoDuplicates A.indptr A.indices) (b : Fin n → ℝ)
    (f f' : ℝ → ℝ → ℝ) (hf : ∀ t b, HasDerivAt (fun s => f s b) (f' t b) t) (alpha beta step : ℝ) (hbeta : 0 ≤ beta) (hstep : 0 < step)
    (groups : List (List ℕ)) (hG : GoodGroups groups) (hn : ∀ g ∈ groups, ∀ i ∈ g, i < p) (x0 : Fin p → ℝ) (k : ℕ) (tol : ℝ) (order : ℕ → List ℕ) :
    ∃ B : BlockState p, GroupL1.blocks groups p = some B ∧
      let P : VRArgs ℝ n p :=
        { A := A, b := b, deriv := f', alpha := alpha, x0 := x0, stepSize := some step, blocks := B.mat,
          prox := GroupL1.sparse beta B, maxIter := k, tol := tol, order := order }
      ∃ S, P.support = some S ∧ ∀ st : SagaState ℝ n p, (∀ c : Fin p, st.avg c = (∑ i, st.mem i * A.ent i c) / (n : ℝ)) → (∀ c, st.tmp c = 0) →
        (∀ i : Fin n, st.mem i = f' (∑ c : Fin p, A.ent i c * st.x c) (b i)) →
        (∀ y, finiteSum (fun i (c : Fin p) => A.ent i c) b f alpha st.x + ∑ h, groupBlockPen beta B h st.x ≤
          finiteSum (fun i (c : Fin p) => A.ent i c) b f alpha y + ∑ h, groupBlockPen beta B h y) →
        ∀ i : Fin n, sagaStep P S step st i = some st := by
  obtain ⟨B, hB, hI, hfp⟩ := GroupL1.blocks_inv hG hn
  refine ⟨B, hB, ?_⟩
  intro P
  have hP : P.Good := ⟨hA, hA2, groupMat_ok hI hfp⟩
  obtain ⟨S, hS, -⟩ := hP.support
  exact ⟨S, hS, fun st havg htmp hmem hmin i => C59_minimiser_fixed P hP S hS (groupBlockPen beta B) (groupBlockPen_ok beta hbeta hI)
    (group_isBlockProx beta hbeta hG hn hB) f hf step hstep st havg htmp hmem hmin i⟩

/-! A concrete problem: two samples `(1, 0)`, `(0, 1)` with labels 3 and 1, squared loss and penalty `|x_0|/2 + |x_1|/2`; the solution is `(2, 0)`. -/

/-- The data of the example. -/
noncomputable def exA : CsrMat ℝ 2 2 := { nnz := 2, data := ![1, 1], indices := ![0, 1], indptr := ![0, 1, 2] }

theorem exA_good : GoodCsr 2 exA.indptr exA.indices := by
  refine ⟨?_, ?_, ?_⟩
  · intro i; fin_cases i <;> simp [exA]
  · intro i; fin_cases i <;> simp [exA]
  · intro i; change Fin 2 at i; fin_cases i <;> simp [exA]

theorem exA_nodup : NoDuplicates exA.indptr exA.indices := by
  intro i j k _ _ _ _ h
  change Fin 2 at j; change Fin 2 at k
  fin_cases j <;> fin_cases k <;> simp [exA] at h ⊢

theorem exA_ent (i c : Fin 2) : exA.ent i c = if i = c then 1 else 0 := by
  unfold CsrMat.ent csrEntry
  show (∑ j : Fin 2, _) = _
  rw [Fin.sum_univ_two]
  fin_cases i <;> fin_cases c <;> simp [exA]

example : let P : VRArgs ℝ 2 2 :=
      { A := exA, b := ![3, 1], deriv := fun t b => t - b, alpha := 0, x0 := ![0, 0], stepSize := some (1 / 3),
        blocks := BlockMat.eye 2, prox := L1Norm.sparse (1 / 2), maxIter := 5, tol := 0, order := fun _ => [0, 1] }
    ∃ S, P.support = some S ∧ ∀ i : Fin 2, sagaStep P S (1 / 3) { x := ![2, 0], mem := ![-1, -1], avg := ![-1 / 2, -1 / 2], tmp := fun _ => 0 } i =
      some { x := ![2, 0], mem := ![-1, -1], avg := ![-1 / 2, -1 / 2], tmp := fun _ => 0 } := by
  intro P
  obtain ⟨S, hS, h⟩ := C59_l1_fixed_iff exA exA_good exA_nodup ![3, 1] (fun t b => (t - b) ^ 2 / 2) (fun t b => t - b)
    (fun t b => by
      have := ((hasDerivAt_id t).sub_const b).fun_pow 2 |>.div_const 2
      simpa using this)
    (fun s t b => by nlinarith [sq_nonneg (s - t)]) 0 (1 / 2) (1 / 3) (le_refl _) (by norm_num) (by norm_num)
    (fun c => ⟨c, c, by fin_cases c <;> simp [exA], by fin_cases c <;> simp [exA], by fin_cases c <;> simp [exA]⟩) ![0, 0] 5 0 (fun _ => [0, 1])
  refine ⟨S, hS, (h _ ?_ ?_ ?_).mpr ?_⟩
  · intro c
    simp only [exA_ent, Fin.sum_univ_two]
    fin_cases c <;> norm_num
  · intro c; rfl
  · intro i
    simp only [exA_ent, Fin.sum_univ_two]
    fin_cases i <;> norm_num
  · intro y
    unfold finiteSum norm1
    simp only [exA_ent, Fin.sum_univ_two]
    norm_num
    have h0 := le_abs_self (y 0)
    have h1 := abs_nonneg (y 1)
    have h2 := neg_abs_le (y 1)
    have h3 := le_abs_self (y 1)
    nlinarith [sq_nonneg (y 0 - 2), sq_nonneg (y 1)]

end Ends

end Copt
