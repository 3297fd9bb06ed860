import Verif.Props.PenalisedOrder
import Verif.Proof.DenseCsr

/-!
# C100, C101: SAGA and SVRG on the losses and penalties of the library, with dense data

The contracts of C98 and C99 are discharged by `f.partial_deriv`, `f.max_lipschitz`, `pen.prox_factory` and `sparse.csr_matrix(A)`, so that the statements
are about the documented problem `min f(x) + g(x)` and the data only.
-/

set_option linter.unusedSectionVars false

namespace Copt

open Spec

variable {n p : ℕ}

/-! ### The documented problem -/

/-- The documented loss with the term `alpha/2 ‖x‖²`. -/
noncomputable def VRLoss.fn (l : VRLoss) (A : Fin n → Fin p → ℝ) (b : Fin n → ℝ) (alpha : ℝ) : (Fin p → ℝ) → ℝ :=
  match l with
  | .log => logisticLoss A b alpha
  | .square => squareLoss A b alpha

/-- Labels of the logistic loss are in `[0, 1]` (loss.py:32-33). -/
def VRLoss.Labels (l : VRLoss) (b : Fin n → ℝ) : Prop :=
  match l with
  | .log => ∀ i, 0 ≤ b i ∧ b i ≤ 1
  | .square => True

/-- Admissible penalties on `p` features. -/
def VRPen.Good (p : ℕ) : VRPen → Prop
  | .none => True
  | .l1Norm beta => 0 ≤ beta
  | .groupL1 beta groups => 0 ≤ beta ∧ GoodGroups groups ∧ ∀ g ∈ groups, ∀ i ∈ g, i < p

/-- The documented penalty. -/
noncomputable def VRPen.fn : VRPen → (Fin p → ℝ) → ℝ
  | .none, _ => 0
  | .l1Norm beta, y => beta * norm1 y
  | .groupL1 beta groups, y => beta * (groups.map fun g => blockNorm (featSet g) y).sum

/-- The documented problem. -/
noncomputable def vrProblem (l : VRLoss) (A : Fin n → Fin p → ℝ) (b : Fin n → ℝ) (alpha : ℝ) (pen : VRPen) (y : Fin p → ℝ) : ℝ := l.fn A b alpha y + pen.fn y

/-- Samples store whole groups or nothing of them. -/
def VRPen.Whole (A : Fin n → Fin p → ℝ) : VRPen → Prop
  | .groupL1 _ groups => ∀ g ∈ groups, ∀ i, (∀ c : Fin p, c.val ∈ g → A i c = 0) ∨ ∀ c : Fin p, c.val ∈ g → A i c ≠ 0
  | _ => True

/-! ### The losses -/

/-- The loss of one sample. -/
noncomputable def VRLoss.phi (l : VRLoss) (t y : ℝ) : ℝ :=
  match l with
  | .log => logistic1 y t
  | .square => (t - y) ^ 2 / 2

/-- The Lipschitz constant of the derivative of the loss of one sample. -/
noncomputable def VRLoss.curv (l : VRLoss) : ℝ :=
  match l with
  | .log => 0.25
  | .square => 1

theorem VRLoss.curv_pos (l : VRLoss) : 0 < l.curv := by cases l <;> norm_num [VRLoss.curv]

theorem VRLoss.maxLipschitz_eq (l : VRLoss) (A : Fin n → Fin p → ℝ) (b : Fin n → ℝ) (alpha : ℝ) :
    l.maxLipschitz A b alpha = l.curv * LogLoss.maxRowSq A + alpha := by
  cases l with
  | log => rfl
  | square => show LogLoss.maxRowSq A + alpha = 1 * LogLoss.maxRowSq A + alpha; rw [one_mul]

theorem VRLoss.deriv_log (t y : ℝ) : VRLoss.log.deriv t y = sigmoid t - y := by
  show LogLoss.partialDeriv (n := 1) (fun _ => t) (fun _ => y) 0 = _
  rw [C23_partial_deriv]; rfl

theorem VRLoss.hasDeriv (l : VRLoss) (t y : ℝ) : HasDerivAt (fun s => l.phi s y) (l.deriv t y) t := by
  cases l with
  | log => rw [VRLoss.deriv_log]; exact hasDerivAt_logistic1 y t
  | square => exact hasDerivAt_sq1 y t

theorem VRLoss.mono (l : VRLoss) (y : ℝ) : Monotone fun t => l.deriv t y := by
  cases l with
  | log =>
    intro s t h
    simp only [VRLoss.deriv_log]
    exact sub_le_sub_right (sigmoid_mono h) _
  | square => exact fun s t h => sub_le_sub_right h y

theorem VRLoss.lip (l : VRLoss) (s t y : ℝ) : |l.deriv s y - l.deriv t y| ≤ l.curv * |s - t| := by
  cases l with
  | log =>
    rw [VRLoss.deriv_log, VRLoss.deriv_log, sub_sub_sub_cancel_right]
    have := sigmoid_lipschitz s t
    norm_num [VRLoss.curv] at this ⊢
    exact this
  | square =>
    show |(s - y) - (t - y)| ≤ 1 * |s - t|
    rw [sub_sub_sub_cancel_right, one_mul]

theorem VRLoss.phi_nonneg (l : VRLoss) {b : Fin n → ℝ} (hb : l.Labels b) (i : Fin n) (t : ℝ) : 0 ≤ l.phi t (b i) := by
  cases l with
  | log => exact logistic1_nonneg (hb i).1 (hb i).2 t
  | square => show 0 ≤ (t - b i) ^ 2 / 2; positivity

/-- A nonnegative smooth function bounds the square of its derivative. -/
theorem VRLoss.deriv_sq_le (l : VRLoss) {b : Fin n → ℝ} (hb : l.Labels b) (i : Fin n) (t : ℝ) : l.deriv t (b i) ^ 2 ≤ 2 * l.curv * l.phi t (b i) := by
  have hM := l.curv_pos
  have h := quad_upper_1d (fun t => l.hasDeriv t (b i)) (fun s t => l.lip s t (b i)) t (t - l.deriv t (b i) / l.curv)
  have h0 := l.phi_nonneg hb i (t - l.deriv t (b i) / l.curv)
  have e : l.deriv t (b i) * (t - l.deriv t (b i) / l.curv - t) + l.curv / 2 * (t - l.deriv t (b i) / l.curv - t) ^ 2 =
      -(l.deriv t (b i) ^ 2 / (2 * l.curv)) := by
    field_simp; ring
  have h1 : l.deriv t (b i) ^ 2 / (2 * l.curv) ≤ l.phi t (b i) := by linarith
  rw [div_le_iff₀ (by positivity)] at h1
  linarith

theorem VRLoss.fn_eq (l : VRLoss) (A : Fin n → Fin p → ℝ) (b : Fin n → ℝ) (alpha : ℝ) (y : Fin p → ℝ) :
    l.fn A b alpha y = finiteSum A b l.phi alpha y := by
  have h : l.fn A b alpha = erm A alpha fun i z => l.phi z (b i) := by
    cases l with
    | log => rfl
    | square => exact squareLoss_eq_erm A b alpha
  rw [h]
  unfold erm finiteSum dot
  simp only [pow_two]

/-! ### The penalties -/

theorem groupBlock_sum {G : List (List ℕ)} (hG : GoodGroups G) {B : BlockState p} (hI : BInv G G B) (beta : ℝ) (y : Fin p → ℝ) :
    ∑ h, groupBlockPen beta B h y = beta * (G.map fun g => blockNorm (featSet g) y).sum := by
  have hnd : G.Nodup := by
    refine hG.disjoint.imp_of_mem fun {a b} ha hb hab he => ?_
    obtain ⟨i, hi⟩ := List.exists_mem_of_ne_nil a (hG.1 a ha).1
    exact hab i hi (he ▸ hi)
  have hblk : ∀ h < B.bp, B.pen h → B.blk h ∈ G := by
    intro h hh hp
    rcases hI.hblk h hh with ⟨a, -⟩ | ⟨-, -, c⟩
    · exact a
    · unfold BlockState.pen at hp; rw [c] at hp; norm_num at hp
  have hpen : ∀ h < B.bp, B.blk h ∈ G → B.pen h := by
    intro h hh hg
    have hm := hI.hmono h hh
    rcases hI.hblk h hh with ⟨-, b⟩ | ⟨-, b, -⟩
    · unfold BlockState.pen; rw [b _ le_rfl hm]; norm_num
    · exact absurd (by unfold BlockState.blk; rw [List.mem_range'_1]; omega) (b _ hg)
  have hinj : ∀ h < B.bp, ∀ h' < B.bp, B.blk h = B.blk h' → h = h' := by
    intro h hh h' hh' he
    have hm := hI.hmono h hh
    have hm' := hI.hmono h' hh'
    have h1 : getD0 B.indptr h ∈ B.blk h' := by rw [← he]; unfold BlockState.blk; rw [List.mem_range'_1]; omega
    have h2 : getD0 B.indptr h' ∈ B.blk h := by rw [he]; unfold BlockState.blk; rw [List.mem_range'_1]; omega
    unfold BlockState.blk at h1 h2
    rw [List.mem_range'_1] at h1 h2
    have hle := ptr_le_of_mono (getD0 B.indptr) B.bp hI.hmono
    rcases lt_trichotomy h h' with hlt | heq | hgt
    · have := hle h' (by omega) (h + 1) (by omega); omega
    · exact heq
    · have := hle h (by omega) (h' + 1) (by omega); omega
  rw [← List.sum_toFinset _ hnd, Finset.mul_sum]
  classical
  have e1 : ∑ h, groupBlockPen beta B h y = ∑ h ∈ Finset.univ.filter (fun h : Fin B.mat.nb => B.pen h.val), beta * blockNorm (featSet (B.blk h.val)) y := by
    rw [Finset.sum_filter]
    refine Finset.sum_congr rfl fun h _ => ?_
    unfold groupBlockPen BlockState.pen
    congr 1
  rw [e1]
  refine Finset.sum_bij (fun h _ => B.blk h.val) (fun h hh => ?_) (fun a ha b hb he => Fin.ext (hinj _ a.isLt _ b.isLt he)) (fun g hg => ?_) (fun h _ => rfl)
  · exact List.mem_toFinset.mpr (hblk _ h.isLt (Finset.mem_filter.mp hh).2)
  · obtain ⟨h, hh, he⟩ := hI.hdone g (List.mem_toFinset.mp hg)
    refine ⟨⟨h, hh⟩, Finset.mem_filter.mpr ⟨Finset.mem_univ _, hpen h hh ?_⟩, he.symm⟩
    rw [← he]; exact List.mem_toFinset.mp hg

/-- What the methods receive for a penalty of the library. -/
theorem VRPen.factory_ok (pen : VRPen) (hp : pen.Good p) : ∃ bp penB, pen.factory p = some bp ∧ GoodBlocks bp.1 p ∧
    IsBlockPenalty bp.1.ptr (penB : Fin bp.1.nb → (Fin p → ℝ) → ℝ) ∧ IsBlockProx penB bp.2 ∧ (∀ y, ∑ h, penB h y = pen.fn y) ∧
    (∀ h, ∃ c : Fin p, InBlock bp.1.ptr h c) ∧
    (∀ A : Fin n → Fin p → ℝ, pen.Whole A → ∀ h (c c' : Fin p), InBlock bp.1.ptr h c → InBlock bp.1.ptr h c' → ∀ i, A i c ≠ 0 → A i c' ≠ 0) := by
  have eye_eq : ∀ (h : Fin (BlockMat.eye p).nb) (c c' : Fin p), InBlock (BlockMat.eye p).ptr h c → InBlock (BlockMat.eye p).ptr h c' → c = c' := by
    rintro h c c' ⟨h1, h2⟩ ⟨h3, h4⟩
    have e1 : ((BlockMat.eye p).ptr h.castSucc : ℕ) = h.val := rfl
    have e2 : ((BlockMat.eye p).ptr h.succ : ℕ) = h.val + 1 := rfl
    exact Fin.ext (by omega)
  cases pen with
  | none =>
    refine ⟨(BlockMat.eye p, noProx), fun _ _ => 0, rfl, goodBlocks_eye p, noPen _, noProx_isBlockProx _, fun y => by simp [VRPen.fn],
      fun h => ⟨h, le_refl h.val, Nat.lt_succ_self h.val⟩, fun A _ h c c' hc hc' i hi => ?_⟩
    rwa [← eye_eq h c c' hc hc']
  | l1Norm beta =>
    refine ⟨(BlockMat.eye p, L1Norm.sparse beta), l1Pen beta, rfl, goodBlocks_eye p, l1Pen_ok beta hp, l1_isBlockProx beta hp, fun y => ?_,
      fun h => ⟨h, le_refl h.val, Nat.lt_succ_self h.val⟩, fun A _ h c c' hc hc' i hi => ?_⟩
    · show ∑ h : Fin p, beta * |y h| = beta * norm1 y
      unfold norm1
      rw [Finset.mul_sum]
    · rwa [← eye_eq h c c' hc hc']
  | groupL1 beta groups =>
    obtain ⟨hb, hG, hn⟩ := hp
    obtain ⟨B, e, hI, hfp⟩ := GroupL1.blocks_inv hG hn
    have hmid : ∀ h : Fin B.mat.nb, getD0 B.indptr h.val < getD0 B.indptr (h.val + 1) := fun h => hI.hmono h.val h.isLt
    have hle := ptr_le_of_mono (getD0 B.indptr) B.bp hI.hmono
    refine ⟨(B.mat, GroupL1.sparse beta B), groupBlockPen beta B, by simp [VRPen.factory, e], groupMat_ok hI hfp, groupBlockPen_ok beta hb hI,
      group_isBlockProx beta hb hG hn e, groupBlock_sum hG hI beta, fun h => ?_, fun A hW h c c' hc hc' i hi => ?_⟩
    · have h1 := hle B.bp le_rfl (h.val + 1) h.isLt
      rw [hI.hend, hfp] at h1
      have h2 := hmid h
      exact ⟨⟨getD0 B.indptr h.val, by omega⟩, le_refl (getD0 B.indptr h.val), h2⟩
    · have hmem : ∀ c : Fin p, InBlock B.mat.ptr h c → c.val ∈ B.blk h.val := by
        intro c hc
        have h1 : getD0 B.indptr h.val ≤ c.val := hc.1
        have h2 : c.val < getD0 B.indptr (h.val + 1) := hc.2
        unfold BlockState.blk
        rw [List.mem_range'_1]; omega
      rcases hI.hblk h.val h.isLt with ⟨hg, -⟩ | ⟨h1, -, -⟩
      · rcases hW _ hg i with h0 | h0
        · exact absurd (h0 c (hmem c hc)) hi
        · exact h0 c' (hmem c' hc')
      · have a1 : getD0 B.indptr h.val ≤ c.val := hc.1
        have a2 : c.val < getD0 B.indptr (h.val + 1) := hc.2
        have b1 : getD0 B.indptr h.val ≤ c'.val := hc'.1
        have b2 : c'.val < getD0 B.indptr (h.val + 1) := hc'.2
        have : c = c' := Fin.ext (by omega)
        rwa [← this]

theorem VRPen.fn_nonneg {pen : VRPen} (hp : pen.Good p) (y : Fin p → ℝ) : 0 ≤ pen.fn y := by
  cases pen with
  | none => exact le_rfl
  | l1Norm beta => exact mul_nonneg hp (Finset.sum_nonneg fun _ _ => abs_nonneg _)
  | groupL1 beta groups =>
    refine mul_nonneg hp.1 (List.sum_nonneg fun t ht => ?_)
    obtain ⟨g, -, rfl⟩ := List.mem_map.mp ht
    exact Real.sqrt_nonneg _

theorem VRPen.fn_continuous (pen : VRPen) : Continuous (pen.fn : (Fin p → ℝ) → ℝ) := by
  cases pen with
  | none => exact continuous_const
  | l1Norm beta => show Continuous fun y : Fin p → ℝ => beta * norm1 y; unfold norm1; fun_prop
  | groupL1 beta groups =>
    refine Continuous.mul continuous_const ?_
    induction groups with
    | nil => exact continuous_const
    | cons g gs ih =>
      simp only [List.map_cons, List.sum_cons]
      refine Continuous.add ?_ ih
      unfold blockNorm
      fun_prop

/-- The call satisfies the hypotheses of C98 and C99. -/
theorem vr_problem (l : VRLoss) (A : Fin n → Fin p → ℝ) (b : Fin n → ℝ) (x0 : Fin p → ℝ) (step : Option ℝ) (pen : VRPen) (hpen : pen.Good p) {alpha : ℝ}
    (halpha : 0 ≤ alpha) (maxIter : ℕ) (tol : ℝ) (order : ℕ → List ℕ) (hn : 0 < n) {D : ℝ}
    (hD : ∀ c, (n : ℝ) ≤ D * (Finset.univ.filter fun i => A i c ≠ 0).card) :
    ∃ (P : VRArgs ℝ n p) (penB : Fin P.blocks.nb → (Fin p → ℝ) → ℝ), vrCall l A b x0 step pen alpha maxIter tol order = some P ∧
      P.alpha = alpha ∧ P.x0 = x0 ∧ P.stepSize = step ∧ P.maxIter = maxIter ∧ P.tol = tol ∧ P.order = order ∧ P.b = b ∧ P.deriv = l.deriv ∧
      (∀ i (c : Fin p), P.A.ent i c = A i c) ∧ P.Good ∧ PenProblem P penB l.phi l.curv (LogLoss.maxRowSq A) D ∧
      (pen.Whole A → FullBlocks P) ∧ ∀ y, vrObj P penB l.phi y = vrProblem l A b alpha pen y := by
  obtain ⟨bp, penB, hf, hgood, hpenB, hprox, hsum, hne, hwhole⟩ := pen.factory_ok (n := n) hpen
  refine ⟨_, penB, by unfold vrCall; rw [hf]; rfl, rfl, rfl, rfl, rfl, rfl, rfl, rfl, rfl, fun i c => csrOfDense_ent A i c,
    ⟨csrOfDense_good A, csrOfDense_nodup A, hgood⟩, ⟨hn, hpenB, hprox, l.hasDeriv, l.mono, l.curv_pos.le, l.lip, fun i => ?_, fun h => ?_, fun h T hT => ?_,
      halpha⟩, fun hW i h c hc ht => ?_, fun y => ?_⟩
  · have h1 := row_bound A i
    refine le_trans (le_of_eq ?_) h1
    unfold dot
    refine Finset.sum_congr rfl fun c _ => ?_
    have : (csrOfDense A).ent i c = A i c := csrOfDense_ent A i c
    rw [← pow_two]
    exact congrArg (· ^ 2) this
  · obtain ⟨c, hc⟩ := hne h
    have h1 := hD c
    have hn' : (0 : ℝ) < n := by exact_mod_cast hn
    have h2 : (Finset.univ.filter fun i => A i c ≠ 0).Nonempty := by
      rw [Finset.nonempty_iff_ne_empty]
      intro h0
      rw [h0] at h1
      simp at h1
      omega
    obtain ⟨i, hi⟩ := h2
    exact ⟨i, c, csrOfDense_stores.mpr (Finset.mem_filter.mp hi).2, hc⟩
  · obtain ⟨c, hc⟩ := hne h
    have h1 := hD c
    have hn' : (0 : ℝ) < n := by exact_mod_cast hn
    have hle : ((Finset.univ.filter fun i => A i c ≠ 0).card : ℝ) ≤ T.card := by
      exact_mod_cast Finset.card_le_card fun i hi => (hT i).mpr ⟨c, csrOfDense_stores.mpr (Finset.mem_filter.mp hi).2, hc⟩
    have hD0 : 0 ≤ D := by
      by_contra hneg
      push Not at hneg
      have := mul_nonpos_of_nonpos_of_nonneg hneg.le (Nat.cast_nonneg (α := ℝ) (Finset.univ.filter fun i => A i c ≠ 0).card)
      linarith
    exact h1.trans (mul_le_mul_of_nonneg_left hle hD0)
  · obtain ⟨c', hst, hc'⟩ := ht
    have hc'p : c' < p := by
      obtain ⟨j, -, -, hj⟩ := hst
      rw [← hj]; exact (csrOfDense_good A).col_lt j
    exact csrOfDense_stores.mpr (hwhole A hW h ⟨c', hc'p⟩ c hc' hc i (csrOfDense_stores (c := ⟨c', hc'p⟩) |>.mp hst))
  · unfold vrObj vrProblem
    rw [hsum, l.fn_eq]
    congr 1
    have e : (fun i (c : Fin p) => (csrOfDense A).ent i c) = A := funext fun i => funext fun c => csrOfDense_ent A i c
    exact congrArg (fun a => finiteSum a b l.phi alpha y) e

/-! ### Minimisers -/

/-- A continuous function with a bounded sublevel set has a minimiser. -/
theorem exists_min_of_box {F : (Fin p → ℝ) → ℝ} (hc : Continuous F) {z : Fin p → ℝ} {r : ℝ} (hbox : ∀ y, F y ≤ F z → ∀ k, |y k| ≤ r) :
    ∃ x, ∀ y, F x ≤ F y := by
  have hcomp : IsCompact (Set.Icc (fun _ : Fin p => -r) (fun _ => r)) := isCompact_Icc
  have hmem : ∀ y, F y ≤ F z → y ∈ Set.Icc (fun _ : Fin p => -r) (fun _ => r) := fun y hy =>
    ⟨fun k => (abs_le.mp (hbox y hy k)).1, fun k => (abs_le.mp (hbox y hy k)).2⟩
  obtain ⟨x, hx, hmin⟩ := hcomp.exists_isMinOn ⟨z, hmem z le_rfl⟩ hc.continuousOn
  refine ⟨x, fun y => ?_⟩
  by_cases hy : F y ≤ F z
  · exact hmin (hmem y hy)
  · exact (show F x ≤ F z from hmin (hmem z le_rfl)).trans (not_le.mp hy).le

section Min
variable (l : VRLoss) (A : Fin n → Fin p → ℝ) (b : Fin n → ℝ) {alpha : ℝ} (pen : VRPen)

theorem VRLoss.phi_continuous (y : ℝ) : Continuous fun t => l.phi t y := continuous_iff_continuousAt.mpr fun t => (l.hasDeriv t y).continuousAt

theorem vrProblem_continuous : Continuous (vrProblem l A b alpha pen) := by
  unfold vrProblem
  refine Continuous.add ?_ pen.fn_continuous
  have e : l.fn A b alpha = finiteSum A b l.phi alpha := funext fun y => l.fn_eq A b alpha y
  rw [e]
  unfold finiteSum
  refine Continuous.add (Continuous.div_const (continuous_finset_sum _ fun i _ => ?_) _) (by fun_prop)
  exact (l.phi_continuous (b i)).comp (by fun_prop)

theorem vrProblem_lower (hb : l.Labels b) (y : Fin p → ℝ) : alpha / 2 * ∑ c, y c ^ 2 + pen.fn y ≤ vrProblem l A b alpha pen y := by
  unfold vrProblem
  rw [l.fn_eq]
  unfold finiteSum
  have : 0 ≤ (∑ i, l.phi (∑ c, A i c * y c) (b i)) / (n : ℝ) :=
    div_nonneg (Finset.sum_nonneg fun i _ => l.phi_nonneg hb i _) (Nat.cast_nonneg n)
  linarith

/-- One sample's loss is at most `n` times the objective. -/
theorem vrProblem_sample (hb : l.Labels b) (hpen : pen.Good p) (halpha : 0 ≤ alpha) (y : Fin p → ℝ) (j : Fin n) :
    l.phi (∑ c, A j c * y c) (b j) ≤ n * vrProblem l A b alpha pen y := by
  have hn : (0 : ℝ) < n := by exact_mod_cast j.pos
  unfold vrProblem
  rw [l.fn_eq]
  unfold finiteSum
  have h1 : l.phi (∑ c, A j c * y c) (b j) ≤ ∑ i, l.phi (∑ c, A i c * y c) (b i) :=
    Finset.single_le_sum (f := fun i => l.phi (∑ c, A i c * y c) (b i)) (fun i _ => l.phi_nonneg hb i _) (Finset.mem_univ j)
  have h2 : 0 ≤ alpha / 2 * ∑ c, y c ^ 2 := mul_nonneg (by linarith) (Finset.sum_nonneg fun _ _ => sq_nonneg _)
  have h3 := VRPen.fn_nonneg hpen y
  have h4 : (n : ℝ) * ((∑ i, l.phi (∑ c, A i c * y c) (b i)) / n + alpha / 2 * ∑ c, y c ^ 2 + pen.fn y) =
      ∑ i, l.phi (∑ c, A i c * y c) (b i) + n * (alpha / 2 * ∑ c, y c ^ 2 + pen.fn y) := by field_simp; ring
  rw [h4]
  have := mul_nonneg hn.le (add_nonneg h2 h3)
  linarith

/-- **C100 (the problem).** With `alpha > 0` the documented problem has a minimiser, and around any minimiser it grows quadratically; so there is only one. -/
theorem C100_minimiser (hb : l.Labels b) (hpen : pen.Good p) (halpha : 0 < alpha) :
    (∃ xs, ∀ y, vrProblem l A b alpha pen xs ≤ vrProblem l A b alpha pen y) ∧
    ∀ xs, (∀ y, vrProblem l A b alpha pen xs ≤ vrProblem l A b alpha pen y) →
      ∀ y, vrProblem l A b alpha pen xs + alpha / 2 * sqDist y xs ≤ vrProblem l A b alpha pen y := by
  constructor
  · refine exists_min_of_box (vrProblem_continuous l A b pen) (z := 0) (r := √(2 * vrProblem l A b alpha pen 0 / alpha)) fun y hy k => ?_
    refine Real.abs_le_sqrt ?_
    rw [le_div_iff₀ halpha]
    have h1 := vrProblem_lower l A b pen (alpha := alpha) hb y
    have h2 : y k ^ 2 ≤ ∑ c, y c ^ 2 := Finset.single_le_sum (f := fun c => y c ^ 2) (fun c _ => sq_nonneg _) (Finset.mem_univ k)
    have h3 := VRPen.fn_nonneg hpen y
    nlinarith
  · intro xs hmin y
    obtain ⟨bp, penB, -, -, hpenB, -, hsum, -, -⟩ := pen.factory_ok (n := n) hpen
    have hconv : ∀ x y : Fin p → ℝ, ∀ t : ℝ, 0 ≤ t → t ≤ 1 → pen.fn ((1 - t) • x + t • y) ≤ (1 - t) * pen.fn x + t * pen.fn y := by
      intro x y t h0 h1
      rw [← hsum, ← hsum, ← hsum, Finset.mul_sum, Finset.mul_sum, ← Finset.sum_add_distrib]
      exact Finset.sum_le_sum fun h _ => hpenB.conv h x y t h0 h1
    have hopt := opt_of_min A b l.phi l.deriv l.hasDeriv alpha pen.fn hconv xs (fun y => by
      have := hmin y
      unfold vrProblem at this
      rw [l.fn_eq, l.fn_eq] at this
      exact this) y
    have hstr := erm_strong (A := A) (alpha := alpha) (phi := fun i z => l.phi z (b i)) (phi' := fun i z => l.deriv z (b i))
      (fun i s t => convex_1d (fun t => l.hasDeriv t (b i)) (l.mono (b i)) s t) xs y
    unfold vrProblem
    rw [l.fn_eq, l.fn_eq]
    have e1 : ∀ z, erm A alpha (fun i z => l.phi z (b i)) z = finiteSum A b l.phi alpha z := fun z => by
      unfold erm finiteSum dot; simp only [pow_two]
    have e2 : dot (y - xs) (y - xs) = sqDist y xs := (sqDist_eq_dot y xs).symm
    have e3 : (fun j => matVecT A (fun i => l.deriv (dot (A i) xs) (b i)) j / n + alpha * xs j) = finiteSumGrad A b l.deriv alpha xs := by
      funext j
      unfold matVecT finiteSumGrad dot
      congr 2
      exact Finset.sum_congr rfl fun i _ => mul_comm _ _
    rw [e1, e1, e2, e3] at hstr
    linarith

end Min

/-! ### The runs -/

section Runs
variable (l : VRLoss) (A : Fin n → Fin p → ℝ) (b : Fin n → ℝ) (x0 : Fin p → ℝ) (pen : VRPen) {alpha step D tol : ℝ} {maxIter : ℕ} {order : ℕ → List ℕ}

/-- The first gradients are bounded through the objective at the starting point. -/
theorem first_gradients (hb : l.Labels b) (hpen : pen.Good p) (halpha : 0 ≤ alpha) (hn : 0 < n) (hstep : 0 < step) (hDp : 0 < D)
    (hs1 : 10 * n * l.maxLipschitz A b alpha * (step * D) ≤ 1) : ∃ m, 0 ≤ m ∧
      (∀ j : Fin n, |l.deriv (∑ c, A j c * x0 c) (b j)| * √(∑ c, A j c ^ 2) ≤ m) ∧
      8 * n * (step * D) * m ^ 2 ≤ 8 / 5 * n * vrProblem l A b alpha pen x0 := by
  have hn' : (0 : ℝ) < n := by exact_mod_cast hn
  have hM := l.curv_pos
  have hrow : ∀ j : Fin n, ∑ c, A j c ^ 2 ≤ LogLoss.maxRowSq A := fun j => by
    have := row_bound A j
    unfold dot at this
    simpa only [pow_two] using this
  have hR : 0 ≤ LogLoss.maxRowSq A := (Finset.sum_nonneg fun _ _ => sq_nonneg _).trans (hrow ⟨0, hn⟩)
  set F0 := vrProblem l A b alpha pen x0 with hF0
  have hF : 0 ≤ F0 := by
    have h1 := vrProblem_lower l A b pen (alpha := alpha) hb x0
    have h2 := VRPen.fn_nonneg hpen x0
    have h3 : 0 ≤ alpha / 2 * ∑ c, x0 c ^ 2 := mul_nonneg (by linarith) (Finset.sum_nonneg fun _ _ => sq_nonneg _)
    linarith
  refine ⟨√(2 * l.curv * (n * F0)) * √(LogLoss.maxRowSq A), by positivity, fun j => ?_, ?_⟩
  · refine mul_le_mul (Real.abs_le_sqrt ((l.deriv_sq_le hb j _).trans ?_)) (Real.sqrt_le_sqrt (hrow j)) (Real.sqrt_nonneg _) (Real.sqrt_nonneg _)
    exact mul_le_mul_of_nonneg_left (vrProblem_sample l A b pen hb hpen halpha x0 j) (by positivity)
  · rw [mul_pow, Real.sq_sqrt (by positivity), Real.sq_sqrt hR]
    rw [l.maxLipschitz_eq] at hs1
    have h1 : 10 * n * (l.curv * LogLoss.maxRowSq A) * (step * D) ≤ 1 := by
      have h2 : 0 ≤ 10 * n * alpha * (step * D) := by positivity
      have h3 : 10 * n * (l.curv * LogLoss.maxRowSq A + alpha) * (step * D) =
        10 * n * (l.curv * LogLoss.maxRowSq A) * (step * D) + 10 * n * alpha * (step * D) := by ring
      linarith
    have h4 := mul_le_mul_of_nonneg_right h1 (by positivity : 0 ≤ 8 / 5 * n * F0)
    nlinarith

theorem D_pos (hn : 0 < n) (hp : 0 < p) (hD : ∀ c, (n : ℝ) ≤ D * (Finset.univ.filter fun i => A i c ≠ 0).card) : 0 < D := by
  have h1 := hD ⟨0, hp⟩
  have hn' : (0 : ℝ) < n := by exact_mod_cast hn
  by_contra h
  push Not at h
  have := mul_nonpos_of_nonpos_of_nonneg h (Nat.cast_nonneg (α := ℝ) (Finset.univ.filter fun i => A i ⟨0, hp⟩ ≠ 0).card)
  linarith

/-- **C100.** `minimize_saga(f.partial_deriv, A, b, x0, step, prox=pen.prox_factory(p), alpha=alpha)` on a dense array, for the logistic and the squared loss, no
penalty, the l1 norm or the group lasso, `alpha > 0`, any order of the samples in each pass, every feature nonzero in at least one in `D` samples and
`step ≤ 1 / (10 n D f.max_lipschitz)`: the run returns, and its result approaches the minimiser of the documented problem linearly, in value and in distance;
without success all passes were made and `tol` is below a bound shrinking at the same rate. -/
theorem C100_saga (hn : 0 < n) (hp : 0 < p) (hb : l.Labels b) (hpen : pen.Good p) (halpha : 0 < alpha)
    (hD : ∀ c, (n : ℝ) ≤ D * (Finset.univ.filter fun i => A i c ≠ 0).card) (hstep : 0 < step) (hs1 : 10 * n * l.maxLipschitz A b alpha * (step * D) ≤ 1)
    (horder : ∀ k, (order k).Perm (List.range n)) (hmax : 0 < maxIter) {xs : Fin p → ℝ}
    (hxs : ∀ y, vrProblem l A b alpha pen xs ≤ vrProblem l A b alpha pen y) :
    ∃ P r, vrCall l A b x0 (some step) pen alpha maxIter tol order = some P ∧ minimizeSaga P = .ok r ∧
      (1 + alpha * step / (40 * D)) ^ r.nit * (vrProblem l A b alpha pen r.x - vrProblem l A b alpha pen xs) ≤
        vrProblem l A b alpha pen x0 - vrProblem l A b alpha pen xs + 8 / 5 * n * vrProblem l A b alpha pen x0 ∧
      (1 + alpha * step / (40 * D)) ^ r.nit * (alpha / 2 * sqDist r.x xs) ≤
        vrProblem l A b alpha pen x0 - vrProblem l A b alpha pen xs + 8 / 5 * n * vrProblem l A b alpha pen x0 ∧
      (r.success = false → r.nit + 1 = maxIter ∧ tol ≤ √(p * n * (4 * (step * D) * ((vrProblem l A b alpha pen x0 - vrProblem l A b alpha pen xs +
        8 / 5 * n * vrProblem l A b alpha pen x0) / (1 + alpha * step / (40 * D)) ^ (r.nit - 1))))) := by
  have hDp := D_pos A hn hp hD
  obtain ⟨m, hm0, hm, hm8⟩ := first_gradients l A b x0 pen hb hpen halpha.le hn hstep hDp hs1
  obtain ⟨P, penB, hcall, rfl, rfl, hss, rfl, rfl, rfl, hbb, hdd, hent, hgood, hq, -, hobj⟩ := vr_problem l A b x0 (some step) pen hpen halpha.le maxIter tol order hn hD
  have hgrow := (C100_minimiser l A b pen hb hpen halpha).2 xs hxs
  rw [l.maxLipschitz_eq] at hs1
  obtain ⟨r, hr, h1, h2⟩ := C98_saga_penalised hp hgood hq hss hstep hs1 (xs := xs) halpha
    (le_add_of_nonneg_left (mul_nonneg hq.nonneg hq.R_nonneg)) (fun y => by rw [hobj, hobj]; exact hgrow y) horder hmax m hm0
    (fun j => by
      rw [hbb, hdd]
      simp only [hent]
      exact hm j)
  rw [hobj, hobj, hobj] at h1
  have h1' := h1.trans (add_le_add_right hm8 _)
  refine ⟨P, r, hcall, hr, h1', le_trans (mul_le_mul_of_nonneg_left ?_ (by positivity)) h1', fun hs => ?_⟩
  · have := hgrow r.x; linarith
  · obtain ⟨k1, k2⟩ := h2 hs
    refine ⟨k1, k2.trans (Real.sqrt_le_sqrt ?_)⟩
    rw [hobj, hobj]
    exact mul_le_mul_of_nonneg_left (mul_le_mul_of_nonneg_left (div_le_div_of_nonneg_right (add_le_add_right hm8 _) (by positivity)) (by positivity)) (by positivity)

/-- **C100 (SVRG).** The same for `minimize_svrg`, when samples have all or none of the features of a group. -/
theorem C100_svrg (hn : 0 < n) (hp : 0 < p) (hb : l.Labels b) (hpen : pen.Good p) (hwhole : pen.Whole A) (halpha : 0 < alpha)
    (hD : ∀ c, (n : ℝ) ≤ D * (Finset.univ.filter fun i => A i c ≠ 0).card) (hstep : 0 < step) (hs1 : 10 * n * l.maxLipschitz A b alpha * (step * D) ≤ 1)
    (horder : ∀ k, (order k).Perm (List.range n)) (hmax : 0 < maxIter) {xs : Fin p → ℝ}
    (hxs : ∀ y, vrProblem l A b alpha pen xs ≤ vrProblem l A b alpha pen y) :
    ∃ P r, vrCall l A b x0 (some step) pen alpha maxIter tol order = some P ∧ minimizeSvrg P = .ok r ∧
      (1 + alpha * step / (20 * D)) ^ (r.nit + 1) * (vrProblem l A b alpha pen r.x - vrProblem l A b alpha pen xs) ≤
        vrProblem l A b alpha pen x0 - vrProblem l A b alpha pen xs ∧
      (1 + alpha * step / (20 * D)) ^ (r.nit + 1) * (alpha / 2 * sqDist r.x xs) ≤ vrProblem l A b alpha pen x0 - vrProblem l A b alpha pen xs ∧
      (r.success = false → r.nit + 1 = maxIter ∧ tol ≤ √(p * n * (2 * (step * D) * ((vrProblem l A b alpha pen x0 - vrProblem l A b alpha pen xs) /
        (1 + alpha * step / (20 * D)) ^ r.nit)))) := by
  have hDp := D_pos A hn hp hD
  obtain ⟨P, penB, hcall, rfl, rfl, hss, rfl, rfl, rfl, hbb, hdd, hent, hgood, hq, hfull, hobj⟩ := vr_problem l A b x0 (some step) pen hpen halpha.le maxIter tol order hn hD
  have hgrow := (C100_minimiser l A b pen hb hpen halpha).2 xs hxs
  rw [l.maxLipschitz_eq] at hs1
  obtain ⟨r, hr, h1, h2⟩ := C98_svrg_penalised hp hgood hq (hfull hwhole) hss hstep hs1 (xs := xs) halpha
    (fun y => by rw [hobj, hobj]; exact hgrow y) horder hmax
  rw [hobj, hobj, hobj] at h1
  rw [hobj, hobj] at h2
  refine ⟨P, r, hcall, hr, h1, le_trans (mul_le_mul_of_nonneg_left ?_ (by positivity)) h1, h2⟩
  have := hgrow r.x; linarith

/-- **C101 (the problem).** With an l1 penalty of weight `beta > 0` and `alpha ≥ 0` the documented problem has a minimiser. -/
theorem C101_minimiser {beta : ℝ} (hb : l.Labels b) (hbeta : 0 < beta) (halpha : 0 ≤ alpha) :
    ∃ xs, ∀ y, vrProblem l A b alpha (.l1Norm beta) xs ≤ vrProblem l A b alpha (.l1Norm beta) y := by
  refine exists_min_of_box (vrProblem_continuous l A b _) (z := 0) (r := vrProblem l A b alpha (.l1Norm beta) 0 / beta) fun y hy k => ?_
  rw [le_div_iff₀ hbeta]
  have h1 := vrProblem_lower l A b (.l1Norm beta) (alpha := alpha) hb y
  have h2 : |y k| ≤ norm1 y := Finset.single_le_sum (f := fun c => |y c|) (fun c _ => abs_nonneg _) (Finset.mem_univ k)
  have h3 : 0 ≤ alpha / 2 * ∑ c, y c ^ 2 := mul_nonneg (by linarith) (Finset.sum_nonneg fun _ _ => sq_nonneg _)
  have h4 : VRPen.fn (.l1Norm beta) y = beta * norm1 y := rfl
  nlinarith

/-- Points with bounded objective are close to the minimiser. -/
theorem l1_radius {beta : ℝ} (hb : l.Labels b) (hbeta : 0 < beta) (halpha : 0 ≤ alpha) {xs : Fin p → ℝ}
    {y : Fin p → ℝ} {u v : ℝ} (hy : vrProblem l A b alpha (.l1Norm beta) y ≤ u) (hx : vrProblem l A b alpha (.l1Norm beta) xs ≤ v) :
    sqDist y xs ≤ ((u + v) / beta) ^ 2 := by
  have key : ∀ {z : Fin p → ℝ} {w : ℝ}, vrProblem l A b alpha (.l1Norm beta) z ≤ w → norm1 z ≤ w / beta := by
    intro z w hz
    rw [le_div_iff₀ hbeta]
    have h1 := vrProblem_lower l A b (.l1Norm beta) (alpha := alpha) hb z
    have h3 : 0 ≤ alpha / 2 * ∑ c, z c ^ 2 := mul_nonneg (by linarith) (Finset.sum_nonneg fun _ _ => sq_nonneg _)
    have h4 : VRPen.fn (.l1Norm beta) z = beta * norm1 z := rfl
    linarith
  have h1 : sqDist y xs ≤ (∑ c, |y c - xs c|) ^ 2 := by
    have e : sqDist y xs = ∑ c, |y c - xs c| ^ 2 := by unfold sqDist; simp only [sq_abs]
    rw [e]
    exact Finset.sum_sq_le_sq_sum_of_nonneg fun c _ => abs_nonneg _
  have h2 : ∑ c, |y c - xs c| ≤ (u + v) / beta := by
    have h3 : ∑ c, |y c - xs c| ≤ norm1 y + norm1 xs := by
      unfold norm1
      rw [← Finset.sum_add_distrib]
      exact Finset.sum_le_sum fun c _ => abs_sub _ _
    rw [add_div]
    exact h3.trans (add_le_add (key hy) (key hx))
  exact h1.trans (pow_le_pow_left₀ (Finset.sum_nonneg fun c _ => abs_nonneg _) h2 2)

theorem vrProblem_nonneg (hb : l.Labels b) (hpen : pen.Good p) (halpha : 0 ≤ alpha) (y : Fin p → ℝ) : 0 ≤ vrProblem l A b alpha pen y := by
  have h1 := vrProblem_lower l A b pen (alpha := alpha) hb y
  have h2 := VRPen.fn_nonneg hpen y
  have h3 : 0 ≤ alpha / 2 * ∑ c, y c ^ 2 := mul_nonneg (by linarith) (Finset.sum_nonneg fun _ _ => sq_nonneg _)
  linarith

/-- **C101.** `minimize_saga` with `L1Norm(beta)`, `beta > 0`, and no strong convexity (`alpha ≥ 0`), on a dense array, any order of the samples: the objective at
the result is within `O(1/passes)` of the minimum, with an explicit constant in the data; without success all passes were made and `tol` is below a bound
vanishing with the passes. -/
theorem C101_saga {beta : ℝ} (hn : 0 < n) (hp : 0 < p) (hb : l.Labels b) (hbeta : 0 < beta) (halpha : 0 ≤ alpha)
    (hD : ∀ c, (n : ℝ) ≤ D * (Finset.univ.filter fun i => A i c ≠ 0).card) (hstep : 0 < step) (hs1 : 10 * n * l.maxLipschitz A b alpha * (step * D) ≤ 1)
    (horder : ∀ k, (order k).Perm (List.range n)) (hmax : 0 < maxIter) {xs : Fin p → ℝ}
    (hxs : ∀ y, vrProblem l A b alpha (.l1Norm beta) xs ≤ vrProblem l A b alpha (.l1Norm beta) y) :
    ∃ P r, vrCall l A b x0 (some step) (.l1Norm beta) alpha maxIter tol order = some P ∧ minimizeSaga P = .ok r ∧
      vrProblem l A b alpha (.l1Norm beta) r.x - vrProblem l A b alpha (.l1Norm beta) xs ≤
        2 * (32 * ((2 + 8 / 5 * n) * vrProblem l A b alpha (.l1Norm beta) x0 / beta) ^ 2 * D / step +
          2 * ((1 + 8 / 5 * n) * vrProblem l A b alpha (.l1Norm beta) x0)) / (r.nit + 1) ∧
      (r.success = false → r.nit + 1 = maxIter ∧ tol ≤ √(p * n * (4 * (step * D) *
        (2 * (32 * ((2 + 8 / 5 * n) * vrProblem l A b alpha (.l1Norm beta) x0 / beta) ^ 2 * D / step +
          2 * ((1 + 8 / 5 * n) * vrProblem l A b alpha (.l1Norm beta) x0)) / ((r.nit - 1 : ℕ) + 1))))) := by
  have hDp := D_pos A hn hp hD
  have hpen : (VRPen.l1Norm beta).Good p := hbeta.le
  obtain ⟨m, hm0, hm, hm8⟩ := first_gradients l A b x0 (.l1Norm beta) hb hpen halpha hn hstep hDp hs1
  obtain ⟨P, penB, hcall, rfl, rfl, hss, rfl, rfl, rfl, hbb, hdd, hent, hgood, hq, -, hobj⟩ :=
    vr_problem l A b x0 (some step) (.l1Norm beta) hpen halpha maxIter tol order hn hD
  have hF0 := vrProblem_nonneg l A b (.l1Norm beta) hb hpen halpha P.x0
  have hFs := vrProblem_nonneg l A b (.l1Norm beta) hb hpen halpha xs
  rw [l.maxLipschitz_eq] at hs1
  obtain ⟨r, hr, h1, h2⟩ := C99_saga_sublinear hp hgood hq hss hstep hs1 (xs := xs) (fun y => by rw [hobj, hobj]; exact hxs y) horder hmax m hm0
    (fun j => by
      rw [hbb, hdd]
      simp only [hent]
      exact hm j) (r0 := (2 + 8 / 5 * n) * vrProblem l A b P.alpha (.l1Norm beta) P.x0 / beta) (by positivity) (fun y hy => by
      rw [hobj, hobj] at hy
      have h := l1_radius l A b hb hbeta halpha (hy.trans (add_le_add_right hm8 _)) (hxs P.x0)
      refine h.trans (le_of_eq ?_)
      ring)
  rw [hobj, hobj, hobj] at h1
  rw [hobj, hobj] at h2
  have hV : 2 * (32 * ((2 + 8 / 5 * n) * vrProblem l A b P.alpha (.l1Norm beta) P.x0 / beta) ^ 2 * D / step +
        2 * (vrProblem l A b P.alpha (.l1Norm beta) P.x0 - vrProblem l A b P.alpha (.l1Norm beta) xs + 8 * n * (step * D) * m ^ 2)) ≤
      2 * (32 * ((2 + 8 / 5 * n) * vrProblem l A b P.alpha (.l1Norm beta) P.x0 / beta) ^ 2 * D / step +
        2 * ((1 + 8 / 5 * n) * vrProblem l A b P.alpha (.l1Norm beta) P.x0)) := by
    linarith
  refine ⟨P, r, hcall, hr, h1.trans (div_le_div_of_nonneg_right hV (by positivity)), fun hs => ?_⟩
  obtain ⟨k1, k2⟩ := h2 hs
  exact ⟨k1, k2.trans (Real.sqrt_le_sqrt (mul_le_mul_of_nonneg_left (mul_le_mul_of_nonneg_left (div_le_div_of_nonneg_right hV (by positivity))
    (by positivity)) (by positivity)))⟩

/-- **C101 (SVRG).** The same for `minimize_svrg`. -/
theorem C101_svrg {beta : ℝ} (hn : 0 < n) (hp : 0 < p) (hb : l.Labels b) (hbeta : 0 < beta) (halpha : 0 ≤ alpha)
    (hD : ∀ c, (n : ℝ) ≤ D * (Finset.univ.filter fun i => A i c ≠ 0).card) (hstep : 0 < step) (hs1 : 10 * n * l.maxLipschitz A b alpha * (step * D) ≤ 1)
    (horder : ∀ k, (order k).Perm (List.range n)) (hmax : 0 < maxIter) {xs : Fin p → ℝ}
    (hxs : ∀ y, vrProblem l A b alpha (.l1Norm beta) xs ≤ vrProblem l A b alpha (.l1Norm beta) y) :
    ∃ P r, vrCall l A b x0 (some step) (.l1Norm beta) alpha maxIter tol order = some P ∧ minimizeSvrg P = .ok r ∧
      vrProblem l A b alpha (.l1Norm beta) r.x - vrProblem l A b alpha (.l1Norm beta) xs ≤
        2 * (8 * (2 * vrProblem l A b alpha (.l1Norm beta) x0 / beta) ^ 2 * D / step + vrProblem l A b alpha (.l1Norm beta) x0) / (r.nit + 2) ∧
      (r.success = false → r.nit + 1 = maxIter ∧ tol ≤ √(p * n * (2 * (step * D) *
        (2 * (8 * (2 * vrProblem l A b alpha (.l1Norm beta) x0 / beta) ^ 2 * D / step + vrProblem l A b alpha (.l1Norm beta) x0) / (r.nit + 1))))) := by
  have hDp := D_pos A hn hp hD
  have hpen : (VRPen.l1Norm beta).Good p := hbeta.le
  obtain ⟨P, penB, hcall, rfl, rfl, hss, rfl, rfl, rfl, hbb, hdd, hent, hgood, hq, hfull, hobj⟩ :=
    vr_problem l A b x0 (some step) (.l1Norm beta) hpen halpha maxIter tol order hn hD
  have hF0 := vrProblem_nonneg l A b (.l1Norm beta) hb hpen halpha P.x0
  have hFs := vrProblem_nonneg l A b (.l1Norm beta) hb hpen halpha xs
  rw [l.maxLipschitz_eq] at hs1
  obtain ⟨r, hr, h1, h2⟩ := C99_svrg_sublinear hp hgood hq (hfull trivial) hss hstep hs1 (xs := xs) (fun y => by rw [hobj, hobj]; exact hxs y) horder hmax
    (r0 := 2 * vrProblem l A b P.alpha (.l1Norm beta) P.x0 / beta) (by positivity) (fun y hy => by
      rw [hobj, hobj] at hy
      have h := l1_radius l A b hb hbeta halpha hy (hxs P.x0)
      refine h.trans (le_of_eq ?_)
      ring)
  rw [hobj, hobj, hobj] at h1
  rw [hobj, hobj] at h2
  have hV : 2 * (8 * (2 * vrProblem l A b P.alpha (.l1Norm beta) P.x0 / beta) ^ 2 * D / step +
        (vrProblem l A b P.alpha (.l1Norm beta) P.x0 - vrProblem l A b P.alpha (.l1Norm beta) xs)) ≤
      2 * (8 * (2 * vrProblem l A b P.alpha (.l1Norm beta) P.x0 / beta) ^ 2 * D / step + vrProblem l A b P.alpha (.l1Norm beta) P.x0) := by
    linarith
  refine ⟨P, r, hcall, hr, h1.trans (div_le_div_of_nonneg_right hV (by positivity)), fun hs => ?_⟩
  obtain ⟨k1, k2⟩ := h2 hs
  exact ⟨k1, k2.trans (Real.sqrt_le_sqrt (mul_le_mul_of_nonneg_left (mul_le_mul_of_nonneg_left (div_le_div_of_nonneg_right hV (by positivity))
    (by positivity)) (by positivity)))⟩

end Runs

/-! ### Concrete cases -/

/-- Two samples with two features; the second feature is missing in the first sample. -/
def exDense : Fin 2 → Fin 2 → ℝ := ![![1, 0], ![1, 1]]

theorem exDense_count (c : Fin 2) : ((2 : ℕ) : ℝ) ≤ 2 * (Finset.univ.filter fun i => exDense i c ≠ 0).card := by
  have h : 1 ≤ (Finset.univ.filter fun i => exDense i c ≠ 0).card :=
    Finset.card_pos.mpr ⟨1, by simp only [Finset.mem_filter, Finset.mem_univ, true_and]; fin_cases c <;> simp [exDense]⟩
  have : (1 : ℝ) ≤ (Finset.univ.filter fun i => exDense i c ≠ 0).card := by exact_mod_cast h
  push_cast
  linarith

theorem exDense_rows : LogLoss.maxRowSq exDense ≤ 2 := by
  unfold LogLoss.maxRowSq
  rw [dif_pos (by norm_num)]
  refine Finset.sup'_le _ _ fun i _ => ?_
  rw [Fin.sum_univ_two]
  fin_cases i <;> norm_num [exDense]

theorem exOrder_perm (k : ℕ) : (if k % 2 = 0 then [0, 1] else [1, 0] : List ℕ).Perm (List.range 2) := by split <;> decide

/-- Logistic regression with a group lasso. -/
example (xs : Fin 2 → ℝ) (hxs : ∀ y, vrProblem .log exDense ![1, 0] 1 (.groupL1 (1 / 2) [[0, 1]]) xs ≤ vrProblem .log exDense ![1, 0] 1 (.groupL1 (1 / 2) [[0, 1]]) y) :
    ∃ P r, vrCall .log exDense ![1, 0] ![3, -2] (some (1 / 60)) (.groupL1 (1 / 2) [[0, 1]]) 1 50 (1 / 10) (fun k => if k % 2 = 0 then [0, 1] else [1, 0]) = some P ∧
      minimizeSaga P = .ok r ∧ (r.success = false → r.nit = 49) := by
  obtain ⟨P, r, h1, h2, -, -, h3⟩ := C100_saga (n := 2) (p := 2) .log exDense ![1, 0] ![3, -2] (.groupL1 (1 / 2) [[0, 1]]) (alpha := 1) (step := 1 / 60) (D := 2)
    (tol := 1 / 10) (maxIter := 50) (order := fun k => if k % 2 = 0 then [0, 1] else [1, 0]) (by norm_num) (by norm_num)
    (fun i => by fin_cases i <;> norm_num) ⟨by norm_num, by unfold GoodGroups; simp [IsRun]; exact ⟨0, rfl⟩, by simp⟩ one_pos exDense_count (by norm_num)
    (by
      rw [VRLoss.maxLipschitz_eq]
      have := exDense_rows
      norm_num [VRLoss.curv]
      linarith) exOrder_perm (by norm_num) hxs
  exact ⟨P, r, h1, h2, fun h => by have := (h3 h).1; omega⟩

/-- Ridge regression with an l1 penalty. -/
example (xs : Fin 2 → ℝ) (hxs : ∀ y, vrProblem .square exDense ![1, 0] 1 (.l1Norm (1 / 2)) xs ≤ vrProblem .square exDense ![1, 0] 1 (.l1Norm (1 / 2)) y) :
    ∃ P r, vrCall .square exDense ![1, 0] ![3, -2] (some (1 / 120)) (.l1Norm (1 / 2)) 1 50 (1 / 10) (fun k => if k % 2 = 0 then [0, 1] else [1, 0]) = some P ∧
      minimizeSvrg P = .ok r ∧ (r.success = false → r.nit = 49) := by
  obtain ⟨P, r, h1, h2, -, -, h3⟩ := C100_svrg (n := 2) (p := 2) .square exDense ![1, 0] ![3, -2] (.l1Norm (1 / 2)) (alpha := 1) (step := 1 / 120) (D := 2)
    (tol := 1 / 10) (maxIter := 50) (order := fun k => if k % 2 = 0 then [0, 1] else [1, 0]) (by norm_num) (by norm_num)
    trivial (by show (0 : ℝ) ≤ 1 / 2; norm_num) trivial one_pos exDense_count (by norm_num)
    (by
      rw [VRLoss.maxLipschitz_eq]
      have := exDense_rows
      norm_num [VRLoss.curv]
      linarith) exOrder_perm (by norm_num) hxs
  exact ⟨P, r, h1, h2, fun h => by have := (h3 h).1; omega⟩

/-- The lasso, and logistic regression with an l1 penalty. -/
example : ∃ xs, ∃ P r, vrCall .square exDense ![1, 0] ![3, -2] (some (1 / 80)) (.l1Norm (1 / 2)) 0 50 (1 / 10) (fun k => if k % 2 = 0 then [0, 1] else [1, 0]) = some P ∧
      minimizeSaga P = .ok r ∧ vrProblem .square exDense ![1, 0] 0 (.l1Norm (1 / 2)) r.x - vrProblem .square exDense ![1, 0] 0 (.l1Norm (1 / 2)) xs ≤
        2 * (32 * ((2 + 8 / 5 * (2 : ℕ)) * vrProblem .square exDense ![1, 0] 0 (.l1Norm (1 / 2)) ![3, -2] / (1 / 2)) ^ 2 * 2 / (1 / 80) +
          2 * ((1 + 8 / 5 * (2 : ℕ)) * vrProblem .square exDense ![1, 0] 0 (.l1Norm (1 / 2)) ![3, -2])) / (r.nit + 1) := by
  obtain ⟨xs, hxs⟩ := C101_minimiser .square exDense ![1, 0] (alpha := 0) (beta := 1 / 2) trivial (by norm_num) le_rfl
  obtain ⟨P, r, h1, h2, h3, -⟩ := C101_saga (n := 2) (p := 2) .square exDense ![1, 0] ![3, -2] (beta := 1 / 2) (alpha := 0) (step := 1 / 80) (D := 2)
    (tol := 1 / 10) (maxIter := 50) (order := fun k => if k % 2 = 0 then [0, 1] else [1, 0]) (by norm_num) (by norm_num)
    trivial (by norm_num) le_rfl exDense_count (by norm_num)
    (by
      rw [VRLoss.maxLipschitz_eq]
      have := exDense_rows
      norm_num [VRLoss.curv]
      linarith) exOrder_perm (by norm_num) hxs
  exact ⟨xs, P, r, h1, h2, h3⟩

example (xs : Fin 2 → ℝ) (hxs : ∀ y, vrProblem .log exDense ![1, 0] 0 (.l1Norm (1 / 2)) xs ≤ vrProblem .log exDense ![1, 0] 0 (.l1Norm (1 / 2)) y) :
    ∃ P r, vrCall .log exDense ![1, 0] ![3, -2] (some (1 / 20)) (.l1Norm (1 / 2)) 0 50 (1 / 10) (fun k => if k % 2 = 0 then [0, 1] else [1, 0]) = some P ∧
      minimizeSvrg P = .ok r ∧ (r.success = false → r.nit = 49) := by
  obtain ⟨P, r, h1, h2, -, h3⟩ := C101_svrg (n := 2) (p := 2) .log exDense ![1, 0] ![3, -2] (beta := 1 / 2) (alpha := 0) (step := 1 / 20) (D := 2)
    (tol := 1 / 10) (maxIter := 50) (order := fun k => if k % 2 = 0 then [0, 1] else [1, 0]) (by norm_num) (by norm_num)
    (fun i => by fin_cases i <;> norm_num) (by norm_num) le_rfl exDense_count (by norm_num)
    (by
      rw [VRLoss.maxLipschitz_eq]
      have := exDense_rows
      norm_num [VRLoss.curv]
      linarith) exOrder_perm (by norm_num) hxs
  exact ⟨P, r, h1, h2, fun h => by have := (h3 h).1; omega⟩

end Copt
