import Mathlib.Algebra.BigOperators.Fin
import Verif.Proof.FusedPairs

/-!
# Properties C10-C14 and C17: `copt/penalty.py`
-/

set_option linter.unusedSectionVars false

namespace Copt

open Spec

section L1
variable {K : Type} [Field K] [LinearOrder K] [IsStrictOrderedRing K] {n m : ℕ}

/-- **C10.** `L1Norm(alpha).prox(x, step)` is the proximal operator of `L1Norm(alpha)`. -/
theorem C10_l1_prox_exact (alpha step : K) (ha : 0 ≤ alpha) (hs : 0 ≤ step) (x : Fin n → K) :
    IsProx (fun y => alpha * norm1 y) step x (L1Norm.prox alpha x step) := by
  refine isProx_of_subgrad fun y => ?_
  have h := Finset.sum_le_sum fun i (_ : i ∈ Finset.univ) =>
    softE_subgrad (mul_nonneg ha hs) (x i) (y i)
  rw [Finset.sum_add_distrib, ← Finset.mul_sum, ← Finset.mul_sum] at h
  have e1 : L1Norm.prox alpha x step = fun i => softE (alpha * step) (x i) := rfl
  rw [e1]
  unfold norm1 dot
  simp only [Pi.sub_apply]
  have c : ∀ z : K, step * (alpha * z) = alpha * step * z := fun z => by ring
  rw [c, c]
  exact h

/-- C10: the value of the penalty used in `C10_l1_prox_exact` is `L1Norm.__call__`. -/
theorem C10_call (alpha : K) (x : Fin n → K) : L1Norm.call alpha x = alpha * norm1 x := rfl

example : IsProx (fun y => (2 : ℚ) * norm1 y) (1/2) ![3, -1/2, -4] (L1Norm.prox 2 ![3, -1/2, -4] (1/2)) :=
  C10_l1_prox_exact 2 (1/2) (by norm_num) (by norm_num) _

/-- **C11.** The in-place operator of `L1Norm.prox_factory` on a row of distinct features: no out-of-bounds
access, each listed feature is replaced by the proximal point of `alpha*d[j]*step*|.|`, the others are
unchanged. -/
theorem C11_l1_kernel (alpha step : K) (d : Fin m → K) (x : Fin n → K) (row : List ℕ) (hnd : row.Nodup)
    (hb : ∀ j ∈ row, j < n ∧ j < m) (ha : 0 ≤ alpha) (hs : 0 ≤ step) (hd : ∀ j, 0 ≤ d j) :
    ∃ x', L1Norm.kernel alpha d step row x = some x' ∧
      (∀ (i : Fin n) (hi : i.val ∈ row), IsUniqueMin Set.univ
        (fun t : K => alpha * d ⟨i.val, (hb _ hi).2⟩ * step * |t| + (t - x i) ^ 2 / 2) (x' i)) ∧
      (∀ i : Fin n, i.val ∉ row → x' i = x i) := by
  obtain ⟨x', e, h⟩ := L1Norm.kernel_spec alpha d step row x hnd hb
  refine ⟨x', e, fun i hi => ?_, fun i hi => ?_⟩
  · rw [h i, dif_pos ⟨hi, (hb _ hi).2⟩]
    exact softE_isUniqueMin (mul_nonneg (mul_nonneg ha (hd _)) hs) _
  · rw [h i, dif_neg (fun h => hi h.1)]

/-- C11, second part: with unit weights and all features listed (in any order) the operator is
`L1Norm.prox`. -/
theorem C11_l1_kernel_full (alpha step : K) (x : Fin n → K) (row : List ℕ) (hperm : row.Perm (List.range n)) :
    L1Norm.kernel alpha (fun _ : Fin n => 1) step row x = some (L1Norm.prox alpha x step) := by
  have hmem : ∀ j, j ∈ row ↔ j < n := fun j => by rw [hperm.mem_iff]; simp
  obtain ⟨x', e, h⟩ := L1Norm.kernel_spec alpha (fun _ : Fin n => 1) step row x
    (hperm.nodup_iff.mpr List.nodup_range) (fun j hj => ⟨(hmem j).mp hj, (hmem j).mp hj⟩)
  rw [e]; congr 1; funext i
  rw [h i, dif_pos ⟨(hmem _).mpr i.2, i.2⟩]
  simp [softE, L1Norm.prox]

example : ([2, 0] : List ℕ).Nodup ∧ ∀ j ∈ ([2, 0] : List ℕ), j < 3 ∧ j < 3 := by decide

end L1

/-- **C12.** The `GroupL1` constructor on non-empty groups: succeeds exactly on runs of consecutive integers
each starting after the end of the previous one, raises ValueError otherwise; accepted groups are pairwise
disjoint (moreover ordered). -/
theorem C12_groups_accepted_iff (groups : List (List ℕ)) (hne : ∀ g ∈ groups, g ≠ []) :
    (GroupL1.init groups = .ok groups ↔ (∀ g ∈ groups, IsRun g) ∧ groups.IsChain StartsAfter) ∧
    (GroupL1.init groups ≠ .ok groups → GroupL1.init groups = .error .valueError) ∧
    (GroupL1.init groups = .ok groups → groups.Pairwise (fun g g' => ∀ i ∈ g, ∀ j ∈ g', i < j)) := by
  rcases initLoop_iff groups none hne (by simp) with ⟨h1, h2⟩ | ⟨h1, h2⟩
  · have e : GroupL1.init groups = .ok groups := by unfold GroupL1.init; rw [h1]; rfl
    have h2' : (∀ g ∈ groups, IsRun g) ∧ groups.IsChain StartsAfter := by simpa using h2
    refine ⟨⟨fun _ => h2', fun _ => e⟩, fun h => absurd e h, fun _ => ?_⟩
    exact GoodGroups.pairwise ⟨fun g hg => ⟨hne g hg, h2'.1 g hg⟩, h2'.2⟩
  · have e : GroupL1.init groups = .error .valueError := by unfold GroupL1.init; rw [h1]; rfl
    have h2' : ¬ ((∀ g ∈ groups, IsRun g) ∧ groups.IsChain StartsAfter) := by simpa using h2
    refine ⟨⟨fun h => (by rw [e] at h; exact absurd h (by simp)), fun h => absurd h h2'⟩, fun _ => e, ?_⟩
    intro h; rw [e] at h; exact absurd h (by simp)

example : (∀ g ∈ ([[1, 2], [4]] : List (List ℕ)), g ≠ []) ∧ GroupL1.init [[1, 2], [4]] = .ok [[1, 2], [4]] ∧
    GroupL1.init [[1, 2], [2]] = .error .valueError ∧ GroupL1.init [[1, 3]] = .error .valueError := by
  refine ⟨by decide, by rfl, by rfl, by rfl⟩

section Group
variable {n m : ℕ}

/-- The weighted groups of the penalty `alpha * ∑ ‖y_g‖`. -/
noncomputable def specGroups (w : ℝ) (groups : List (List ℕ)) : List (ℝ × Finset (Fin n)) :=
  groups.map (fun g => (w, featSet g))

/-- **C13.** `GroupL1(alpha, groups).prox(x, step)` is the proximal point of `step * alpha * ∑_g ‖y_g‖`, and
features outside all groups are unchanged. -/
theorem C13_group_prox_exact (alpha step : ℝ) (ha : 0 ≤ alpha) (hs : 0 ≤ step) (groups : List (List ℕ))
    (hG : GoodGroups groups) (hn : ∀ g ∈ groups, ∀ i ∈ g, i < n) (x : Fin n → ℝ) :
    ∃ p, GroupL1.prox alpha groups x step = .ok p ∧
      IsProx (groupPen (specGroups (step * alpha) groups)) 1 x p ∧
      ∀ i : Fin n, (∀ g ∈ groups, i.val ∉ g) → p i = x i := by
  obtain ⟨p, e, h1, h2⟩ := GroupL1.prox_fold alpha step x groups x
    (fun g hg => ⟨(hG.1 g hg).2.nodup, hn g hg⟩) hG.disjoint (fun _ _ _ _ => rfl)
  refine ⟨p, e, ?_, h2⟩
  refine blockProx ?_ ?_ x p ?_ ?_
  · unfold specGroups
    rw [List.pairwise_map]
    exact hG.disjoint.imp fun h => featSet_disjoint h
  · intro b hb
    obtain ⟨g, -, rfl⟩ := List.mem_map.mp hb
    exact mul_nonneg hs ha
  · intro b hb i hi
    obtain ⟨g, hg, rfl⟩ := List.mem_map.mp hb
    exact h1 g hg i (mem_featSet.mp hi)
  · intro i hi
    refine h2 i fun g hg hig => ?_
    exact hi (step * alpha, featSet g) (List.mem_map.mpr ⟨g, hg, rfl⟩) (mem_featSet.mpr hig)

/-- C13: the penalty of `C13_group_prox_exact` is `step` times `GroupL1.__call__`. -/
theorem C13_call (alpha step : ℝ) (groups : List (List ℕ)) (hG : GoodGroups groups)
    (hn : ∀ g ∈ groups, ∀ i ∈ g, i < n) (y : Fin n → ℝ) :
    ∃ v, GroupL1.call alpha groups y = .ok v ∧ groupPen (specGroups (step * alpha) groups) y = step * v := by
  have hm : ∀ gs : List (List ℕ), (∀ g ∈ gs, g.Nodup ∧ ∀ i ∈ g, i < n) →
      gs.mapM (fancyNorm y) = .ok (gs.map (fun g => blockNorm (featSet g) y)) := by
    intro gs
    induction gs with
    | nil => intro _; rfl
    | cons g gs ih =>
      intro h
      have hg := h g List.mem_cons_self
      rw [List.mapM_cons, fancyNorm_ok y g hg.1 hg.2, ih (fun k hk => h k (List.mem_cons_of_mem _ hk))]
      rfl
  refine ⟨alpha * (groups.map (fun g => blockNorm (featSet g) y)).sum, ?_, ?_⟩
  · unfold GroupL1.call
    rw [hm groups (fun g hg => ⟨(hG.1 g hg).2.nodup, hn g hg⟩)]; rfl
  · unfold groupPen specGroups
    rw [List.map_map, ← mul_assoc, ← List.sum_map_mul_left]; rfl

theorem goodGroups_example : GoodGroups [[1, 2], [4]] := by
  refine ⟨?_, ?_⟩
  · intro g hg
    simp at hg
    rcases hg with rfl | rfl
    · exact ⟨by simp, 1, rfl⟩
    · exact ⟨by simp, 4, rfl⟩
  · simp [StartsAfter]

example : ∃ p, GroupL1.prox 1 [[1, 2], [4]] ![1, 3, 4, 0, -1/2] 1 = .ok p ∧
    IsProx (groupPen (specGroups (n := 5) (1 * 1) [[1, 2], [4]])) 1 ![1, 3, 4, 0, -1/2] p ∧
    ∀ i : Fin 5, (∀ g ∈ ([[1, 2], [4]] : List (List ℕ)), i.val ∉ g) → p i = (![1, 3, 4, 0, -1/2] : Fin 5 → ℝ) i :=
  C13_group_prox_exact 1 1 (by norm_num) (by norm_num) _ goodGroups_example (by decide) _

/-- **C14 (structure).** The block construction of `GroupL1.prox_factory` never writes out of bounds and
produces a partition of `range(n_features)` in consecutive blocks `[ptr h, ptr (h+1))`; each block is either
one of the groups (data 1) or a single feature belonging to no group (data -1), and each group is a block. -/
theorem C14_block_structure (groups : List (List ℕ)) (hG : GoodGroups groups)
    (hn : ∀ g ∈ groups, ∀ i ∈ g, i < n) :
    ∃ (B : BlockState n) (ptr : ℕ → ℕ), GroupL1.blocks groups n = some B ∧
      (∀ h ≤ B.bp, rd B.indptr h = some (ptr h)) ∧ ptr 0 = 0 ∧ ptr B.bp = n ∧
      (∀ h < B.bp, ptr h < ptr (h + 1)) ∧
      (∀ h < B.bp,
        (List.range' (ptr h) (ptr (h + 1) - ptr h) ∈ groups ∧
          ∀ j, ptr h ≤ j → j < ptr (h + 1) → rd B.data j = some 1) ∨
        (ptr (h + 1) = ptr h + 1 ∧ (∀ g ∈ groups, ptr h ∉ g) ∧ rd B.data (ptr h) = some (-1))) ∧
      (∀ g ∈ groups, ∃ h < B.bp, g = List.range' (ptr h) (ptr (h + 1) - ptr h)) := by
  obtain ⟨B, e, hI, hfp⟩ := GroupL1.blocks_inv hG hn
  have hbn : B.bp ≤ n := hI.hbp.trans hI.hfp
  refine ⟨B, getD0 B.indptr, e, fun h hh => rd_eq_getD0 _ (by omega), hI.h0, by rw [hI.hend, hfp],
    hI.hmono, ?_, hI.hdone⟩
  intro h hh
  have hm := hI.hmono h hh
  have hp := hI.ptr_le (h := h + 1) (by omega)
  rcases hI.hblk h hh with ⟨a, b⟩ | ⟨a, b, c⟩
  · left; refine ⟨a, fun j h1 h2 => ?_⟩
    rw [rd_eq_getD0 B.data (by omega), b j h1 h2]
  · right; refine ⟨a, b, ?_⟩
    rw [rd_eq_getD0 B.data (by omega), c]

/-- The weighted blocks of the penalty that the kernel applies on the blocks listed in `row`: for each listed
penalised block `h`, weight `alpha * (step * d[h])` and the features of the block. -/
noncomputable def rowGroups (alpha step : ℝ) (B : BlockState n) (d : Fin m → ℝ) (row : List ℕ) :
    List (ℝ × Finset (Fin n)) :=
  (row.filter (fun h => decide (0 < getD0 B.data (getD0 B.indptr h)))).map
    (fun h => (alpha * (step * getD0 d h), featSet (B.blk h)))

/-- **C14 (operator).** On any list of distinct blocks the in-place operator never accesses memory out of
bounds and computes the proximal point of the sum, over the penalised blocks listed, of
`alpha * step * d[h] * ‖y_block‖`; features of other blocks (and of unpenalised ones) are unchanged. -/
theorem C14_kernel_exact (groups : List (List ℕ)) (hG : GoodGroups groups)
    (hn : ∀ g ∈ groups, ∀ i ∈ g, i < n) (alpha step : ℝ) (ha : 0 ≤ alpha) (hs : 0 ≤ step)
    (d : Fin m → ℝ) (hd : ∀ h, 0 ≤ d h) :
    ∃ B : BlockState n, GroupL1.blocks groups n = some B ∧
      ∀ (row : List ℕ) (x : Fin n → ℝ), row.Nodup → (∀ h ∈ row, h < B.bp ∧ h < m) →
        ∃ x', GroupL1.kernel alpha B d step row x = some x' ∧
          IsProx (groupPen (rowGroups alpha step B d row)) 1 x x' ∧
          ∀ i : Fin n, (∀ h ∈ row, i.val ∈ B.blk h → ∀ g ∈ groups, i.val ∉ g) → x' i = x i := by
  obtain ⟨B, e, hI, hfp⟩ := GroupL1.blocks_inv hG hn
  refine ⟨B, e, fun row x hnd hb => ?_⟩
  obtain ⟨x', e', h1, h2⟩ := GroupL1.kernel_spec hI alpha d step row x hnd hb
  have hpen : ∀ h < B.bp, B.pen h → B.blk h ∈ groups := by
    intro h hh hp
    rcases hI.hblk h hh with ⟨a, _⟩ | ⟨_, _, c⟩
    · exact a
    · unfold BlockState.pen at hp; rw [c] at hp; norm_num at hp
  refine ⟨x', e', ?_, ?_⟩
  · refine blockProx ?_ ?_ x x' ?_ ?_
    · unfold rowGroups
      rw [List.pairwise_map]
      have hnd2 : (row.filter (fun h => decide (0 < getD0 B.data (getD0 B.indptr h)))).Pairwise (· ≠ ·) :=
        hnd.filter _
      refine List.Pairwise.imp_of_mem ?_ hnd2
      intro a b ha hb' hne
      exact featSet_disjoint (hI.blk_disjoint (hb a (List.mem_filter.mp ha).1).1
        (hb b (List.mem_filter.mp hb').1).1 hne)
    · intro b hb'
      obtain ⟨h, hh, rfl⟩ := List.mem_map.mp hb'
      have hm := (hb h (List.mem_filter.mp hh).1).2
      show 0 ≤ alpha * (step * getD0 d h)
      rw [getD0_lt d hm]
      exact mul_nonneg ha (mul_nonneg hs (hd _))
    · intro b hb' i hi
      obtain ⟨h, hh, rfl⟩ := List.mem_map.mp hb'
      obtain ⟨hh1, hh2⟩ := List.mem_filter.mp hh
      exact h1 h hh1 (show 0 < _ from of_decide_eq_true hh2) i (mem_featSet.mp hi)
    · intro i hi
      refine h2 i fun h hh hp him => ?_
      exact hi _ (List.mem_map.mpr ⟨h, List.mem_filter.mpr ⟨hh, decide_eq_true hp⟩, rfl⟩) (mem_featSet.mpr him)
  · intro i hi
    refine h2 i fun h hh hp him => ?_
    exact hi h hh him _ (hpen h (hb h hh).1 hp) him

/-- **C14 (agreement).** With unit weights and all blocks listed, the operator computes `GroupL1.prox`. -/
theorem C14_kernel_full (groups : List (List ℕ)) (hG : GoodGroups groups)
    (hn : ∀ g ∈ groups, ∀ i ∈ g, i < n) (alpha step : ℝ) (x : Fin n → ℝ) :
    ∃ (B : BlockState n) (p : Fin n → ℝ), GroupL1.blocks groups n = some B ∧
      GroupL1.prox alpha groups x step = .ok p ∧
      GroupL1.kernel alpha B (fun _ : Fin B.bp => 1) step (List.range B.bp) x = some p := by
  obtain ⟨B, e, hI, hfp⟩ := GroupL1.blocks_inv hG hn
  obtain ⟨p, ep, hp1, hp2⟩ := GroupL1.prox_fold alpha step x groups x
    (fun g hg => ⟨(hG.1 g hg).2.nodup, hn g hg⟩) hG.disjoint (fun _ _ _ _ => rfl)
  obtain ⟨x', e', h1, h2⟩ := GroupL1.kernel_spec hI alpha (fun _ : Fin B.bp => (1 : ℝ)) step (List.range B.bp) x
    List.nodup_range (fun h hh => ⟨by simpa using hh, by simpa using hh⟩)
  refine ⟨B, p, e, ep, ?_⟩
  rw [e']
  congr 1
  funext i
  by_cases hi : ∃ g ∈ groups, i.val ∈ g
  · obtain ⟨g, hg, hig⟩ := hi
    obtain ⟨h, hh, rfl⟩ := hI.hdone g hg
    have hpen : B.pen h := by
      have hm := hI.hmono h hh
      rcases hI.hblk h hh with ⟨_, b⟩ | ⟨_, b, _⟩
      · unfold BlockState.pen; rw [b _ le_rfl hm]; norm_num
      · exact absurd ((BlockState.mem_blk hm.le).mpr ⟨le_rfl, hm⟩) (b _ hg)
    rw [h1 h (by simpa using hh) hpen i hig, hp1 _ hg i hig, getD0_lt (fun _ : Fin B.bp => (1 : ℝ)) hh]
    congr 1; ring
  · push Not at hi
    rw [hp2 i hi]
    refine h2 i fun h hh hp him => ?_
    have hh' : h < B.bp := by simpa using hh
    rcases hI.hblk h hh' with ⟨a, _⟩ | ⟨_, _, c⟩
    · exact hi _ a him
    · unfold BlockState.pen at hp; rw [c] at hp; norm_num at hp

example : ∃ (B : BlockState 5) (ptr : ℕ → ℕ), GroupL1.blocks [[1, 2], [4]] 5 = some B ∧
    (∀ h ≤ B.bp, rd B.indptr h = some (ptr h)) ∧ ptr 0 = 0 ∧ ptr B.bp = 5 := by
  obtain ⟨B, ptr, a, b, c, d, _⟩ := C14_block_structure (n := 5) _ goodGroups_example (by decide)
  exact ⟨B, ptr, a, b, c, d⟩

end Group

section Fused
variable {K : Type} [Field K] [LinearOrder K] [IsStrictOrderedRing K] {n m : ℕ}

/-- **C17 (partition).** Both block structures partition `range(n_features)`: block pointers start at 0, end
at `n`, each block has two features (penalised) or one (unpenalised). -/
theorem C17_blocks_partition (n : ℕ) (hn : 0 < n) :
    ∀ B ∈ ([FusedLasso.blocks1 n, FusedLasso.blocks2 n] : List (PairBlocks n)),
      B.indptr.length = B.nBlocks + 1 ∧ B.indptr[0]? = some 0 ∧ B.indptr[B.nBlocks]? = some n ∧
      ∀ h < B.nBlocks, ∃ j, B.indptr[h]? = some j ∧
        ((B.indptr[h + 1]? = some (j + 2) ∧ ∃ v, rd B.data j = some v ∧ 0 < v) ∨
         (B.indptr[h + 1]? = some (j + 1) ∧ ∃ v, rd B.data j = some v ∧ v ≤ 0)) := by
  have gen : ∀ B : PairBlocks n, PairInv B → B.indptr.length = B.nBlocks + 1 ∧ B.indptr[0]? = some 0 ∧
      B.indptr[B.nBlocks]? = some n ∧
      ∀ h < B.nBlocks, ∃ j, B.indptr[h]? = some j ∧
        ((B.indptr[h + 1]? = some (j + 2) ∧ ∃ v, rd B.data j = some v ∧ 0 < v) ∨
         (B.indptr[h + 1]? = some (j + 1) ∧ ∃ v, rd B.data j = some v ∧ v ≤ 0)) := by
    intro B hI
    have hget : ∀ h ≤ B.nBlocks, B.indptr[h]? = some (B.start h) := by
      intro h hh
      unfold PairBlocks.start
      rw [List.getElem?_eq_getElem (by rw [hI.len]; omega)]; rfl
    refine ⟨hI.len, by rw [hget 0 (Nat.zero_le _), hI.first], by rw [hget _ le_rfl, hI.last], ?_⟩
    intro h hh
    refine ⟨B.start h, hget h hh.le, ?_⟩
    have hm := hI.mono h hh
    have hle := hI.start_le (h := h + 1) hh
    have hr := rd_eq_getD0 B.data (i := B.start h) (by omega)
    rcases hI.size h hh with ⟨a, b⟩ | ⟨a, b⟩
    · left; exact ⟨by rw [hget _ hh, b], _, hr, by unfold PairBlocks.active at a; simpa using a⟩
    · right; exact ⟨by rw [hget _ hh, b], _, hr, by unfold PairBlocks.active at a; simpa using a⟩
  intro B hB
  simp at hB
  rcases hB with rfl | rfl
  · exact gen _ (blocks1_inv n)
  · exact gen _ (blocks2_inv n hn)

/-- **C17 (pairs).** The pairs of the two structures together are exactly the consecutive pairs
`(j, j+1)`, `j < n - 1`, each exactly once. -/
theorem C17_pairs_exact (n : ℕ) (hn : 0 < n) :
    ((FusedLasso.blocks1 n).activeStarts ++ (FusedLasso.blocks2 n).activeStarts).Perm (List.range (n - 1)) := by
  rw [blocks1_activeStarts, blocks2_activeStarts n hn]
  have := evens_odds_perm (n - 1)
  have e : (n - 1 + 1) / 2 = n / 2 := by omega
  rwa [e] at this

theorem tv1_eq_sum (y : Fin n → K) : tv1 y = ((List.range (n - 1)).map (adjDiff y)).sum := by
  unfold tv1
  rw [← List.sum_ofFn]
  congr 1
  refine List.ext_getElem (by simp) fun k h1 h2 => ?_
  have hk : k < n - 1 := by simpa using h1
  simp only [List.getElem_ofFn, List.getElem_map, List.getElem_range]
  unfold adjDiff
  rw [dif_pos (by omega), abs_sub_comm]

/-- **C17 (penalties).** The two halves sum to the fused-lasso penalty. -/
theorem C17_penalties_sum (alpha : K) (hn : 0 < n) (y : Fin n → K) :
    pairPen ((FusedLasso.blocks1 n).activeStarts.map (fun j => (alpha, j))) y +
      pairPen ((FusedLasso.blocks2 n).activeStarts.map (fun j => (alpha, j))) y = FusedLasso.call alpha y := by
  have e : FusedLasso.call alpha y = alpha * tv1 y := rfl
  rw [e, tv1_eq_sum]
  unfold pairPen
  rw [List.map_map, List.map_map, ← List.sum_append, ← List.map_append]
  have hp := (C17_pairs_exact n hn).map (fun j => alpha * adjDiff y j)
  have := hp.sum_eq
  rw [List.sum_map_mul_left (List.range (n - 1))] at this
  exact this

theorem sum_featSet_pair (j : ℕ) (hj : j + 1 < n) (f : Fin n → K) :
    ∑ i ∈ featSet [j, j + 1], f i = f ⟨j, by omega⟩ + f ⟨j + 1, hj⟩ := by
  rw [featSet_cons j (by omega), featSet_cons (j + 1) hj, Finset.sum_insert, Finset.sum_insert]
  · simp [featSet]
  · simp [featSet]
  · simp [featSet]

theorem pairKernel_isProx {B : PairBlocks n} (hI : PairInv B) (alpha step : K) (ha : 0 ≤ alpha) (hs : 0 ≤ step)
    (d : Fin m → K) (hd : ∀ h, 0 ≤ d h) (row : List ℕ) (x : Fin n → K) (hnd : row.Nodup)
    (hb : ∀ h ∈ row, h < B.nBlocks ∧ h < m) :
    ∃ x', FusedLasso.kernel alpha B d step row x = some x' ∧
      IsProx (pairPen ((row.filter B.active).map (fun h => (step * getD0 d h * alpha, B.start h)))) 1 x x' ∧
      ∀ i : Fin n, (∀ h ∈ row, B.active h = true → i.val ≠ B.start h ∧ i.val ≠ B.start h + 1) → x' i = x i := by
  obtain ⟨x', e, h1, h2⟩ := FusedLasso.kernel_spec hI alpha d step row x hnd hb
  have hun : ∀ i : Fin n, (∀ h ∈ row, B.active h = true → i.val ≠ B.start h ∧ i.val ≠ B.start h + 1) →
      x' i = x i := by
    intro i hi
    have := h2 i.val hi
    rwa [getD0_lt _ i.2, getD0_lt _ i.2] at this
  refine ⟨x', e, ?_, hun⟩
  refine isProx_of_subgrad fun y => ?_
  set R := row.filter B.active with hR
  have hRm : ∀ h ∈ R, h ∈ row ∧ B.active h = true := fun h hh => List.mem_filter.mp hh
  have hsz : ∀ h ∈ R, B.start h + 1 < n := by
    intro h hh
    obtain ⟨a, b⟩ := hRm h hh
    have s := (hI.size h (hb h a).1).resolve_right (by simp [b])
    have := hI.start_le (h := h + 1) (hb h a).1
    omega
  have hdec : dot (x - x') (y - x') = (R.map (fun h => ∑ i ∈ featSet [B.start h, B.start h + 1],
      (x i - x' i) * (y i - x' i))).sum := by
    have := sum_blocks (R.map (fun h => (h, (featSet [B.start h, B.start h + 1] : Finset (Fin n)))))
      (fun i => (x i - x' i) * (y i - x' i)) ?_ ?_
    · rw [List.map_map] at this; exact this
    · rw [List.pairwise_map]
      have hnd2 : R.Pairwise (· ≠ ·) := hnd.filter _
      refine List.Pairwise.imp_of_mem ?_ hnd2
      intro a b ha hb' hne
      obtain ⟨a1, a2⟩ := hRm a ha
      obtain ⟨b1, b2⟩ := hRm b hb'
      have := hI.apart (hb a a1).1 (hb b b1).1 hne a2 b2
      refine featSet_disjoint fun i hi hi' => ?_
      simp at hi hi'
      omega
    · intro i hi
      rw [hun i]
      · ring
      · intro h hh hact
        have := hi (h, featSet [B.start h, B.start h + 1])
          (List.mem_map.mpr ⟨h, List.mem_filter.mpr ⟨hh, hact⟩, rfl⟩)
        rw [mem_featSet] at this
        simp at this
        exact this
  rw [hdec, one_mul, one_mul]
  unfold pairPen
  rw [List.map_map, List.map_map, ← List.sum_map_add]
  refine List.sum_le_sum fun h hh => ?_
  obtain ⟨a, b⟩ := hRm h hh
  have hj := hsz h hh
  have hj0 : B.start h < n := by omega
  obtain ⟨u1, u2⟩ := h1 h a b
  have hm := (hb h a).2
  rw [getD0_lt _ hj0, getD0_lt _ hj0, getD0_lt _ hj] at u1
  rw [getD0_lt _ hj, getD0_lt _ hj0, getD0_lt _ hj] at u2
  have hw : 0 ≤ step * getD0 d h * alpha := by
    rw [getD0_lt d hm]; exact mul_nonneg (mul_nonneg hs (hd _)) ha
  have key := pair_subgrad hw (x ⟨B.start h, hj0⟩) (x ⟨B.start h + 1, hj⟩) (y ⟨B.start h, hj0⟩)
    (y ⟨B.start h + 1, hj⟩)
  rw [← u1, ← u2] at key
  simp only [Function.comp]
  rw [sum_featSet_pair _ hj]
  unfold adjDiff
  rw [dif_pos hj, dif_pos hj]
  exact key

/-- **C17 (operators).** For every list of distinct blocks, both in-place operators access no memory out of
bounds, compute the proximal point of `∑ step*d[h]*alpha*|y_j - y_{j+1}|` over the penalised blocks listed,
and leave every feature outside these pairs unchanged. -/
theorem C17_kernels_exact (hn : 0 < n) (alpha step : K) (ha : 0 ≤ alpha) (hs : 0 ≤ step)
    (d : Fin m → K) (hd : ∀ h, 0 ≤ d h) (B : PairBlocks n)
    (hB : B = FusedLasso.blocks1 n ∨ B = FusedLasso.blocks2 n) (row : List ℕ) (x : Fin n → K) (hnd : row.Nodup)
    (hb : ∀ h ∈ row, h < B.nBlocks ∧ h < m) :
    ∃ x', FusedLasso.kernel alpha B d step row x = some x' ∧
      IsProx (pairPen ((row.filter B.active).map (fun h => (step * getD0 d h * alpha, B.start h)))) 1 x x' ∧
      ∀ i : Fin n, (∀ h ∈ row, B.active h = true → i.val ≠ B.start h ∧ i.val ≠ B.start h + 1) → x' i = x i := by
  rcases hB with rfl | rfl
  · exact pairKernel_isProx (blocks1_inv n) alpha step ha hs d hd row x hnd hb
  · exact pairKernel_isProx (blocks2_inv n hn) alpha step ha hs d hd row x hnd hb

example : (FusedLasso.blocks2 5).nBlocks = 3 ∧ (∀ h ∈ ([2, 0] : List ℕ), h < (FusedLasso.blocks2 5).nBlocks ∧ h < 3) ∧
    (FusedLasso.blocks2 5).activeStarts = [1, 3] ∧ (FusedLasso.blocks1 5).activeStarts = [0, 2] := by decide

end Fused

end Copt
